// Search for a certificate of a lower bound, e.g. ./gen_cert 7 16 > c7.txt (g++ -O2 -std=c++17).  Its output is made into
// lean/Verif/Proof/Cert7.lean by gen_cert.py.  Nothing depends on this program: the kernel checks the certificate.
#include <bits/stdc++.h>
using namespace std;
typedef bitset<256> BS;
struct Cl{ array<int,9> w; int tot; };
struct Ent{ BS s; vector<int> v; int b; int kind; bool pol; vector<array<int,2>> dummy; vector<int> wid; vector<int> winv; vector<vector<int>> wp; Cl c; vector<array<int,9>> ch; };
vector<Ent> db[9];       // proven
vector<pair<int,int>> order; // global order (n, idx)
map<pair<int,int>,int> gid;
struct Fl{BS s; vector<int> v;int b;};
vector<Fl> fails[9];
vector<vector<int>> perms[9];
vector<vector<unsigned char>> tabs[9];
vector<int> vecs(const BS&s,int n){vector<int> r;for(int i=0;i<(1<<n);i++)if(s[i])r.push_back(i);return r;}
array<int,9> wts(const vector<int>&v,bool inv,int n){array<int,9> a{};for(int x:v){int p=__builtin_popcount(x);a[inv?n-p:p]++;}return a;}
struct Tgt{ int n; BS s; vector<int> v; array<int,9> w; vector<vector<BS>> proj; }; // proj by weight class
Tgt mk(int n,const BS&s){Tgt t;t.n=n;t.s=s;t.v=vecs(s,n);t.w=wts(t.v,false,n);
  t.proj.assign(n+1,vector<BS>(n+1));
  for(int x:t.v){int w=__builtin_popcount(x);for(int k=0;k<=n;k++)t.proj[w][k][x&((1<<k)-1)]=1;}
  return t;}
bool rec2(int n,int k,vector<int>&p,int used,const vector<int>&B,const vector<int>&wB,const Tgt&t,vector<vector<int>>&cur){
  if(k==n) return true;
  for(int c=0;c<n;c++) if(!(used>>c&1)){
    bool ok=true;
    for(size_t i=0;i<B.size();i++){int y=cur[k][i]|(((B[i]>>c)&1)<<k);cur[k+1][i]=y; if(!t.proj[wB[i]][k+1][y]){ok=false;break;}}
    if(!ok) continue;
    p[k]=c;
    if(rec2(n,k+1,p,used|1<<c,B,wB,t,cur)) return true;
  }
  return false;
}
bool sub1(int n,const vector<int>&B0,bool inv,const Tgt&t,vector<int>&p){
  int full=(1<<n)-1;
  auto w=wts(B0,inv,n);
  for(int i=0;i<=n;i++) if(w[i]>t.w[i]) return false;
  vector<int> B(B0); if(inv) for(int&x:B) x^=full;
  vector<int> wB(B.size()); for(size_t i=0;i<B.size();i++) wB[i]=__builtin_popcount(B[i]);
  vector<vector<int>> cur(n+1,vector<int>(B.size(),0));
  p.assign(n,0);
  return rec2(n,0,p,0,B,wB,t,cur);
}
bool known(int n,const Tgt&t,int b,int&id,int&inv,vector<int>&p){
  for(int i=(int)db[n].size()-1;i>=0;i--) if(db[n][i].b>=b){
    if(db[n][i].v.size()>t.v.size()) continue;
    for(int z=0;z<2;z++) if(sub1(n,db[n][i].v,z,t,p)){id=i;inv=z;return true;}
  }
  return false;
}
bool knownFail(int n,const BS&s,int b){
  auto v=vecs(s,n);
  for(auto&f:fails[n]) if(f.b<=b && f.v.size()>=v.size()){
    Tgt t=mk(n,f.s); vector<int>p;
    for(int z=0;z<2;z++) if(sub1(n,v,z,t,p)) return true;
  }
  return false;
}
bool app_nr(int n,const vector<int>&v,int j,int i){bool a=false,b=false;for(int x:v){int p=(x>>j)&1,q=(x>>i)&1;if(p&&!q)a=true;if(q&&!p)b=true;}return a&&b;}
BS app(const vector<int>&v,int i,int j){BS r;for(int x:v){int a=(x>>i)&1,b=(x>>j)&1;int y=x&~((1<<i)|(1<<j));y|=((a&b)<<i)|((a|b)<<j);r[y]=1;}return r;}
int huff(vector<int> a){multiset<int> m(a.begin(),a.end());while(m.size()>1){auto x=*m.begin();m.erase(m.begin());auto y=*m.begin();m.erase(m.begin());m.insert(max(x,y)+1);}return *m.begin();}
bool prove(int n,const BS&s,int b);
int optv(int n,const BS&s,int lo,int cap){int r=lo;while(r<cap&&prove(n,s,r+1))r++;return r;}
long calls=0;
void add(int n,Ent&e){db[n].push_back(e);gid[{n,(int)db[n].size()-1}]=order.size();order.push_back({n,(int)db[n].size()-1});
 if(order.size()%50==0||n==7) fprintf(stderr,"n=%d b=%d |s|=%zu kind=%d total=%zu\n",n,e.b,e.v.size(),e.kind,order.size());}
bool wit(Ent&e,int n,const BS&s,int b){
  if(b<=1){e.wid.push_back(-1);e.winv.push_back(0);e.wp.push_back({});return b==0||(int)s.count()>n+1;}
  Tgt t=mk(n,s);int id,inv;vector<int>p;
  if(!known(n,t,b,id,inv,p)){return false;}
  e.wid.push_back(gid[{n,id}]);e.winv.push_back(inv);e.wp.push_back(p);return true;
}
int upper[9]={0,0,1,3,5,9,12,16,19};
bool prove(int n,const BS&s,int b){
  if(b<=0) return true;
  bool uns=(int)s.count()>n+1;
  if(b==1) return uns;
  if(!uns) return false;
  if(b>upper[n]) return false;
  Tgt t=mk(n,s);
  {int id,inv;vector<int>p;if(known(n,t,b,id,inv,p))return true;}
  if(knownFail(n,s,b)) return false;
  // huffman
  if(n>=3) for(int pol=0;pol<2;pol++){
    vector<int> ch; vector<BS> ps;
    for(int c=0;c<n;c++){int x=pol?((1<<n)-1)^(1<<c):(1<<c); if(!s[x])continue; ch.push_back(c);
      BS q;for(int y:t.v){int bit=(y>>c)&1; if(bit!=(pol?0:1))continue; int z=(y&((1<<c)-1))|((y>>(c+1))<<c);q[z]=1;} ps.push_back(q);}
    if(ch.size()<1) continue;
    vector<int> mx(ch.size(),min(b,upper[n-1]));
    if(huff(mx)<b) continue;
    bool dead=false; vector<int> cur(mx);
    for(size_t i=0;i<ch.size()&&!dead;i++){ cur[i]=optv(n-1,ps[i],0,mx[i]); if(huff(cur)<b) dead=true; }
    if(dead) continue;
    // lower
    for(bool chg=true;chg;){chg=false;for(size_t i=0;i<cur.size();i++) if(cur[i]>0){cur[i]--; if(huff(cur)>=b)chg=true; else cur[i]++;}}
    Ent e;e.s=s;e.v=t.v;e.b=b;e.kind=0;e.pol=pol;
    // need bounds exactly achieved: witness gives step bound >= cur
    bool ok=true; for(size_t i=0;i<ps.size();i++){ int bb=cur[i]; if(bb<=1){ bb=min(bb,1);} ok&=wit(e,n-1,ps[i],bb);} 
    assert(ok);
    add(n,e); return true;
  }
  vector<pair<size_t,BS>> ss; vector<BS> all;
  for(int i=0;i<n;i++)for(int j=0;j<i;j++) if(app_nr(n,t.v,j,i)){BS q=app(t.v,j,i);all.push_back(q);ss.push_back({q.count(),q});}
  stable_sort(ss.begin(),ss.end(),[](auto&a,auto&b){return a.first<b.first;});
  for(auto&x:ss) if(!prove(n,x.second,b-1)){fails[n].push_back({s,t.v,b});return false;}
  Ent e;e.s=s;e.v=t.v;e.b=b;e.kind=1;e.pol=0;
  bool ok=true;for(auto&q:all) ok&=wit(e,n,q,b-1); assert(ok);
  add(n,e);return true;
}
int main(int argc,char**argv){int n=atoi(argv[1]),b=atoi(argv[2]);BS s;for(int i=0;i<(1<<n);i++)s[i]=1;
  bool r=prove(n,s,b);fprintf(stderr,"%d total %zu\n",r,order.size());
  if(!r) return 1;
  int last=order.size()-1; vector<char> need(order.size(),0);need[last]=1;
  for(int g=last;g>=0;g--) if(need[g]){auto&e=db[order[g].first][order[g].second];for(int w:e.wid)if(w>=0)need[w]=1;}
  vector<int> nid(order.size(),-1);int k=0;for(int g=0;g<=last;g++)if(need[g])nid[g]=k++;
  map<int,int> per;
  for(int g=0;g<=last;g++)if(need[g]){auto [m,i]=order[g];auto&e=db[m][i];per[m]++;
    printf("%d %d %d %d |",m,e.b,e.kind,(int)e.pol);for(int x:e.v)printf(" %d",x);printf(" |");
    for(size_t j=0;j<e.wid.size();j++){ if(e.wid[j]<0){printf(" -1;");continue;} printf(" %d %d",nid[e.wid[j]],e.winv[j]);for(int q:e.wp[j])printf(" %d",q);printf(";");}
    printf("\n");}
  fprintf(stderr,"kept %d\n",k);for(auto&x:per)fprintf(stderr," n=%d: %d\n",x.first,x.second);
}
