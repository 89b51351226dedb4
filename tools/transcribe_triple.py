"""Transcribe coeffs.py 210-1600 (`_poly_coeffs_triple`) into Model/TripleDirect.lean and write Lemmas/TripleDirect.lean.

The Python file is parsed as text; it is not executed."""
import ast,re
src=open('/repo/src/microjax/coeffs.py').read()
tree=ast.parse(src)
fn=[n for n in tree.body if isinstance(n,ast.FunctionDef) and n.name=='_poly_coeffs_triple'][0]
PREC={ast.Add:1,ast.Sub:1,ast.Mult:2}
def ex(n):
    # returns text, prec
    if isinstance(n,ast.Name): return n.id,9
    if isinstance(n,ast.Constant):
        v=n.value; assert int(v)==v; return str(int(v)),9
    if isinstance(n,ast.UnaryOp):
        assert isinstance(n.op,ast.USub); t,p=ex(n.operand)
        return '-'+(t if p>=8 else '('+t+')'),2 if True else 0
    if isinstance(n,ast.BinOp):
        l,lp=ex(n.left); r,rp=ex(n.right)
        if isinstance(n.op,ast.Pow):
            return (l if lp>=9 else '('+l+')')+' ^ '+r,8
        q=PREC[type(n.op)]
        o={ast.Add:'+',ast.Sub:'-',ast.Mult:'*'}[type(n.op)]
        return (l if lp>=q else '('+l+')')+' '+o+' '+(r if rp>q else '('+r+')'),q
    raise Exception(ast.dump(n))
def terms(n,sg=1):
    # flatten +/- into signed monomials, in source order
    if isinstance(n,ast.BinOp) and isinstance(n.op,ast.Add): return terms(n.left,sg)+terms(n.right,sg)
    if isinstance(n,ast.BinOp) and isinstance(n.op,ast.Sub): return terms(n.left,sg)+terms(n.right,-sg)
    t,p=ex(n)
    if sg<0:
        assert not t.startswith('-'); t='-'+t if p>=8 else '-'+t
    return [t]
VARS=['a','w','wbar','r3','r3bar','e1','e2']
def mono(n):
    # (coef, exps) of a product
    if isinstance(n,ast.Name): return 1,[int(v==n.id) for v in VARS]
    if isinstance(n,ast.Constant): assert int(n.value)==n.value; return int(n.value),[0]*7
    if isinstance(n,ast.UnaryOp):
        assert isinstance(n.op,ast.USub); c,e=mono(n.operand); return -c,e
    if isinstance(n,ast.BinOp) and isinstance(n.op,ast.Mult):
        c,e=mono(n.left);d,f=mono(n.right); return c*d,[x+y for x,y in zip(e,f)]
    if isinstance(n,ast.BinOp) and isinstance(n.op,ast.Pow):
        c,e=mono(n.left); assert c==1 and sum(e)==1; return 1,[x*int(n.right.value) for x in e]
    raise Exception(ast.dump(n))
def flat(n,sg=1):
    if isinstance(n,ast.BinOp) and isinstance(n.op,ast.Add): return flat(n.left,sg)+flat(n.right,sg)
    if isinstance(n,ast.BinOp) and isinstance(n.op,ast.Sub): return flat(n.left,sg)+flat(n.right,-sg)
    c,e=mono(n); return [(sg*c,e)]
def mtext(t):
    c,e=t
    return ('.m '+(f'({c})' if c<0 else str(c))+' '+' '.join(map(str,e)))
def wrapl(ts,w=112,ind='    '):
    out=[];cur=''
    for i,tok in enumerate(ts):
        tok=tok+(',' if i<len(ts)-1 else '')
        if len(cur)+1+len(tok)>w: out.append(cur);cur=tok
        else: cur=(cur+' '+tok) if cur else tok
    out.append(cur)
    return ('\n'+ind).join(out)
def wrap(t,w=112,ind='    '):
    out=[];cur=''
    for tok in re.split(r' (?=[+-] )',t):
        if len(cur)+1+len(tok)>w: out.append(cur);cur=tok
        else: cur=(cur+' '+tok) if cur else tok
    out.append(cur)
    return ('\n'+ind).join(out)
o='''import Mathlib.Data.Complex.Basic
import Mathlib.Algebra.BigOperators.Group.List.Defs

/-!
# The image polynomial of the triple lens in the frame of the mid-point

`coeffs.py` 210-1600, `_poly_coeffs_triple`.  The function is an alternative to `_poly_coeffs_triple_CM`; the call is
commented out in `point_source.py` 333.  The coefficients are transcribed mechanically from the source (same
monomials in the same order, `**` written `^`; the sum of the monomials is the sum of a list).
-/

noncomputable section

namespace Microjax.PointSource

open Complex ComplexConjugate

/-- A monomial `c * a**i0 * w**i1 * wbar**i2 * r3**i3 * r3bar**i4 * e1**i5 * e2**i6` (our encoding of a summand in
`coeffs.py` 231-1596). -/
inductive Term7
  | m (c : ℤ) (i0 i1 i2 i3 i4 i5 i6 : ℕ)

/-- Value of a summand (`coeffs.py` 231-1596). -/
def Term7.eval {K : Type*} [CommRing K] (a w wbar r3 r3bar e1 e2 : K) : Term7 → K
  | .m c i0 i1 i2 i3 i4 i5 i6 =>
    c * a ^ i0 * w ^ i1 * wbar ^ i2 * r3 ^ i3 * r3bar ^ i4 * e1 ^ i5 * e2 ^ i6

/-- Sum of the summands of a coefficient (`coeffs.py` 231-1596). -/
def evalTerms {K : Type*} [CommRing K] (a w wbar r3 r3bar e1 e2 : K) (ts : List Term7) : K :=
  (ts.map (Term7.eval a w wbar r3 r3bar e1 e2)).sum

'''
names=[]
for st in fn.body:
    if isinstance(st,ast.Assign) and st.targets[0].id.startswith('p_'):
        nm=st.targets[0].id; k=nm[2:]
        ts=[mtext(t) for t in flat(st.value)]; MON=globals().setdefault('MON',{}); MON[int(k)]=flat(st.value)
        o+=f"/-- `coeffs.py` {st.lineno}-{st.end_lineno}: `{nm}`. -/\ndef tripleP{k} : List Term7 := [\n    {wrapl(ts)}]\n\n"
        names.append(k)
assert names==[str(i) for i in range(11)]
o+='''/-- `coeffs.py` 210-1600 `_poly_coeffs_triple`: the coefficients, highest order first. -/
def polyCoeffsTriple (w : ℂ) (a : ℝ) (r3 : ℂ) (e1 e2 : ℝ) : List ℂ :=
  ['''+',\n   '.join(f"evalTerms (a : ℂ) w (conj w) r3 (conj r3) e1 e2 tripleP{k}" for k in names)+''']

end Microjax.PointSource
'''
open('/verif/lean/Verif/Model/TripleDirect.lean','w').write(o)
# proofs
def conv(A,B):
    C=[[] for _ in range(len(A)+len(B)-1)]
    for i,x in enumerate(A):
        for j,y in enumerate(B):
            C[i+j].append((x,y))
    return C
from collections import Counter
def mul(A,B):  # dict monomial(tuple)->coef per degree
    C=[Counter() for _ in range(len(A)+len(B)-1)]
    for i,x in enumerate(A):
        for j,y in enumerate(B):
            for m1,c1 in x.items():
                for m2,c2 in y.items():
                    C[i+j][tuple(sorted(m1+m2))]+=c1*c2
    return C
one=Counter({():1})
P=[one]+[Counter({(s,):1}) for s in ('P2','P1','P0')]
Q=[one]+[Counter({(s,):1}) for s in ('Q1','Q0')]
P2=mul(P,P);P3=mul(P2,P);P2Q=mul(P2,Q);PQ=mul(P,Q);Q2=mul(Q,Q);PQ2=mul(PQ,Q);Q3=mul(Q2,Q)
def s(c):
    if not c: return '0'
    return ' + '.join((f'{v} * ' if v!=1 or not m else '')*(v!=1 or True)+' * '.join(m) if m else str(v) for m,v in c.items())
def show(c):
    ts=[]
    for m,v in sorted(c.items(),key=lambda x:(len(x[0]),x[0])):
        if not m: ts.append(str(v))
        elif v==1: ts.append(' * '.join(m))
        else: ts.append(f'{v} * '+' * '.join(m))
    return ' + '.join(ts) if ts else '0'
def at(A,deg): # A highest first; coefficient of z^deg
    i=len(A)-1-deg
    return show(A[i]) if 0<=i<len(A) else '0'
cs=[]
for k in range(11):
    d=10-k
    T=[]
    for sg,A in (('s3',P3),('s2',P2Q),('s1',PQ2),('1',Q3)):
        x=at(A,d-1);y=at(A,d)
        T.append(f'{sg} * (({x}) - w * ({y}))')
    for sg,A in (('t2',P3),('t1',P2Q),('1',PQ2)):
        T.append(f'- {sg} * ({at(A,d)})')
    cs.append(' + '.join(T).replace('+ -','-'))
L='''import Verif.Model.TripleDirect
import Verif.Lemmas.Coeffs
import Mathlib.Tactic.Ring
import Mathlib.Tactic.LinearCombination

/-!
# The coefficients of `_poly_coeffs_triple`

Each coefficient is compared with the coefficient of the product form, expanded in powers of `z`.
-/

noncomputable section

namespace Microjax.Props

open Complex ComplexConjugate Spec PointSource

section
variable {K : Type*} [CommRing K]

'''
args='w s1 s2 s3 t1 t2 P2 P1 P0 Q1 Q0'
for k in range(11):
    L+=f"set_option linter.unusedVariables false in\n/-- Coefficient of `z^{10-k}` of the product form. -/\ndef tripleC{k} ({args} : K) : K :=\n    {wrap(cs[k])}\n\n"
L+=f'''set_option linter.unusedVariables false in
theorem tripleC_sum ({args} z : K) :
    '''+' + '.join(f'tripleC{k} {args} * z ^ {10-k}' for k in range(11))+f''' =
    (s3 * (z ^ 3 + P2 * z ^ 2 + P1 * z + P0) ^ 3
      + s2 * (z ^ 3 + P2 * z ^ 2 + P1 * z + P0) ^ 2 * (z ^ 2 + Q1 * z + Q0)
      + s1 * (z ^ 3 + P2 * z ^ 2 + P1 * z + P0) * (z ^ 2 + Q1 * z + Q0) ^ 2 + (z ^ 2 + Q1 * z + Q0) ^ 3) * (z - w)
    - (z ^ 3 + P2 * z ^ 2 + P1 * z + P0) * (t2 * (z ^ 3 + P2 * z ^ 2 + P1 * z + P0) ^ 2
      + t1 * (z ^ 3 + P2 * z ^ 2 + P1 * z + P0) * (z ^ 2 + Q1 * z + Q0) + (z ^ 2 + Q1 * z + Q0) ^ 2) := by
  simp only ['''+', '.join(f'tripleC{k}' for k in range(11))+''']
  ring

variable (a w v r q e1 e2 : K)

'''
b1,b2,b3='(v - a)','(v + a)','(v - q)'
e3='(1 - e1 - e2)'
sub={'w':'w','s1':f'({b1} + {b2} + {b3})','s2':f'({b1} * {b2} + {b1} * {b3} + {b2} * {b3})','s3':f'({b1} * {b2} * {b3})',
 't2':f'(e1 * {b2} * {b3} + e2 * {b1} * {b3} + {e3} * {b1} * {b2})',
 't1':f'({b1} + {b2} + {b3} - (e1 * {b1} + e2 * {b2} + {e3} * {b3}))',
 'P2':'(-r)','P1':'(-a ^ 2)','P0':'(a ^ 2 * r)',
 'Q1':'(e1 * (a - r) + e2 * (-a - r))','Q0':f'(e1 * (-(a * r)) + e2 * (a * r) - {e3} * a ^ 2)'}
A=' '.join(sub[x] for x in args.split())
L+=f'''/-- The coefficients of the product form with the symbols filled in; `v` stands for the conjugate of `w`, `q` for that of
`r`. -/
def tripleFill (f : K → K → K → K → K → K → K → K → K → K → K → K) : K :=
  f {A.replace(') (',')'+chr(10)+'    (')}

'''
for k in range(11):
    L+=f'''set_option maxRecDepth 100000 in
theorem tripleP{k}_eq : evalTerms a w v r q e1 e2 tripleP{k} = tripleFill a w v r q e1 e2 tripleC{k} := by
  simp only [tripleP{k}, evalTerms, Term7.eval, tripleFill, tripleC{k}, List.map_cons, List.map_nil, List.sum_cons,
    List.sum_nil, Int.cast_ofNat, Int.cast_neg, Int.cast_one, pow_zero, pow_one, mul_one]
  ring

'''
L+='''end

/-- The polynomial of `_poly_coeffs_triple` in product form. -/
theorem evalPoly_tripleDirect (w : ℂ) (a : ℝ) (r : ℂ) (e1 e2 : ℝ) (z : ℂ) :
    evalPoly (polyCoeffsTriple w a r e1 e2) z =
      (let P := (z - a) * (z + a) * (z - r)
       let Q := e1 * (z + a) * (z - r) + e2 * (z - a) * (z - r) + (1 - e1 - e2) * (z - a) * (z + a)
       let n1 := (conj w - a) * P + Q
       let n2 := (conj w + a) * P + Q
       let n3 := (conj w - conj r) * P + Q
       n1 * n2 * n3 * (z - w) - P * (e1 * n2 * n3 + e2 * n1 * n3 + (1 - e1 - e2) * n1 * n2)) := by
  have h := tripleC_sum (K := ℂ)
  have hh : evalPoly (polyCoeffsTriple w a r e1 e2) z =
      '''+'\n        + '.join(f'tripleFill (a : ℂ) w (conj w) r (conj r) e1 e2 tripleC{k} * z ^ {10-k}' for k in range(11))+''' := by
    simp only [polyCoeffsTriple, evalPoly, List.foldl_cons, List.foldl_nil, '''+', '.join(f'tripleP{k}_eq' for k in range(11))+''']
    ring
  rw [hh]
  simp only [tripleFill]
  rw [h]
  ring

end Microjax.Props
'''
open('/verif/lean/Verif/Lemmas/TripleDirect.lean','w').write(L)
