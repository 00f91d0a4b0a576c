import Verif.Distributed

/-! # Domain decomposition solvers

Model of `solvers/utility.hpp` (numbering of overlapping subdomains), `solvers/ddm.hpp` (weights, `solve`) and
`wrappers/wrapper_hpddm.hpp` (`GMV`, `scaledexchange`). HPDDM is not part of the repository: its `exchange` is modelled from its contract and its Krylov
solver is an arbitrary function. -/

namespace Htool
variable {R : Type*}

/-! ## LocalNumberingBuilder -/

/-- The vectors `renum` and `local_to_global_numbering` and the variable `count` of the constructor (solvers/utility.hpp 30-44). Vectors
are functions; only positions below their sizes are meaningful. -/
structure LNB where
  renum : ℕ → ℤ
  l2g : ℕ → ℕ
  count : ℕ

/-- First loop (solvers/utility.hpp 33-36). -/
def lnbOwn (o2g c2o : List ℕ) : LNB :=
  (List.range c2o.length).foldl (fun s i =>
    { s with renum := Function.update s.renum (c2o.getD i 0) (i : ℤ), l2g := Function.update s.l2g i (o2g.getD (c2o.getD i 0) 0) })
    ⟨fun _ => -1, fun _ => 0, 0⟩

/-- Body of the second loop (solvers/utility.hpp 39-42). -/
def lnbStep (o2g : List ℕ) (s : LNB) (i : ℕ) : LNB :=
  if s.renum i = -1 then
    ⟨Function.update s.renum i (s.count : ℤ), Function.update s.l2g s.count (o2g.getD i 0), s.count + 1⟩
  else s

/-- Second loop (solvers/utility.hpp 37-43), with `count` starting from the size of `cluster_to_ovr_subdomain`. -/
def lnbOverlap (o2g c2o : List ℕ) : LNB :=
  (List.range o2g.length).foldl (lnbStep o2g) { lnbOwn o2g c2o with count := c2o.length }

/-- `LocalNumberingBuilder::local_to_global_numbering` (solvers/utility.hpp 25, 29): a vector of the size of the subdomain. -/
def localToGlobal (o2g c2o : List ℕ) : List ℕ := (List.range o2g.length).map (lnbOverlap o2g c2o).l2g

/-- `LocalNumberingBuilder::intersections` (solvers/utility.hpp 45-50). -/
def localIntersections (o2g c2o : List ℕ) (inter : List (List ℕ)) : List (List ℤ) :=
  inter.map (fun I => I.map (lnbOverlap o2g c2o).renum)

/-! ## DDM -/

/-- The weights `D` of rank `r` (solvers/ddm.hpp 59-61). -/
def ddmWeight [Zero R] [One R] (nInside : ℕ) (k : ℕ) : R := if k < nInside then 1 else 0

/-- The data given to HPDDM by `make_DDM_solver` (solvers/ddm.hpp 385-450): `N r` is the number of unknowns of subdomain `r` with its
overlap, `nb r` its neighbours, each with the list of the unknowns shared with it (in the local numbering of `r`). -/
structure Subdomains where
  N : ℕ → ℕ
  nb : ℕ → List (ℕ × List ℕ)

/-- The list subdomain `s` shares with `r`, empty if `r` is not a neighbour of `s`. -/
def Subdomains.shared (X : Subdomains) (s r : ℕ) : List ℕ := ((X.nb s).find? (fun p => p.1 = r)).elim [] Prod.snd

variable [CommRing R] [StarRing R]

/-- One column of `exchange` of HPDDM on subdomain `r`: it adds what it receives from each neighbour, in the order of the list, at the
unknowns of its own list. -/
def Subdomains.exchCol (X : Subdomains) (v : ℕ → Buf R) (r c : ℕ) (o : Buf R) : Buf R :=
  (X.nb r).foldl (fun o p => (List.range p.2.length).foldl (fun o j =>
    Function.update o (p.2.getD j 0) (o (p.2.getD j 0) + v p.1 (c * X.N p.1 + (X.shared p.1 r).getD j 0))) o) o

/-- `exchange(out, mu)` of HPDDM: each subdomain sends its values at the unknowns shared with each neighbour and adds what it receives.
Buffers hold `mu` columns of `N r` values one after the other. HPDDM is not in the repository: this is its documented contract. -/
def Subdomains.exch (X : Subdomains) (v : ℕ → Buf R) (mu : ℕ) : ℕ → Buf R := fun r =>
  (List.range mu).foldl (fun o c => Buf.at' (c * X.N r) (X.exchCol v r c) o) (v r)

/-- `HPDDMOperator::scaledexchange` (wrapper_hpddm.hpp 140-142): the same after a multiplication by the weights given to `initialize`. -/
def Subdomains.scaled (X : Subdomains) (w : ℕ → ℕ → R) (v : ℕ → Buf R) (mu : ℕ) : ℕ → Buf R :=
  X.exch (fun r k => if k < mu * X.N r then w r (k % X.N r) * v r k else v r k) mu

/-- `HPDDMOperator::GMV` (wrapper_hpddm.hpp 94-138). `work` is the content of `in_global`, `b1` and `b2` that of the two halves of
`buffer` before the call. -/
def gmv (D : DOp R) (X : Subdomains) (inp out work b1 b2 : ℕ → Buf R) (mu : ℕ) : ℕ → Buf R :=
  if mu ≠ 1 then
    let buf := fun r => toRM mu (D.tgt.size r) (fun i => (inp r).from' (i * X.N r)) (b1 r)
    let buf := if D.sym = .H then fun r => conjBuf (D.tgt.size r * mu) (buf r) else buf
    let res := D.intMatL2L buf b2 work mu
    let res := if D.sym = .H then fun r => conjBuf (D.tgt.size r * mu) (res r) else res
    let o := fun r => (List.range mu).foldl (fun o i => fun k =>
      if i * X.N r ≤ k ∧ k < (i + 1) * X.N r then
        (if k - i * X.N r < D.tgt.size r then res r (i + (k - i * X.N r) * mu) else 0)
      else o k) (out r)
    X.exch o mu
  else
    let res := D.intVecL2L inp out work
    X.exch (fun r k => if D.tgt.size r ≤ k ∧ k < X.N r then 0 else res r k) mu

/-- The right-hand sides given to the Krylov method by `DDM::solve` (solvers/ddm.hpp 147-169). -/
def ddmRhs (D : DOp R) (X : Subdomains) (rhs : ℕ → Buf R) (mu : ℕ) : ℕ → Buf R :=
  let localRhs := fun r => (List.range mu).foldl (fun o i =>
    Buf.at' (i * X.N r) (copyN (D.tgt.size r) ((D.tgt.g2p ((rhs r).from' (i * D.tgt.n)) (fun _ => 0)).from' (D.tgt.off r))) o) (fun _ => 0)
  X.scaled (fun r => ddmWeight (D.tgt.size r)) localRhs mu

/-- What `DDM::solve` writes to `x` from the iterates `xl` returned by the Krylov method (solvers/ddm.hpp 174-207). The two halves of
`in_global` are separate buffers here. -/
def ddmGather (D : DOp R) (X : Subdomains) (xl : ℕ → Buf R) (x : ℕ → Buf R) (mu : ℕ) : ℕ → Buf R := fun r =>
  let nb := D.tgt.n
  let loc := fun p => (List.range mu).foldl (fun o i =>
    Buf.at' (i * D.tgt.size p) (copyN (D.tgt.size p) ((xl p).from' (i * X.N p))) o) (fun _ => 0)
  let recv := fun i => D.tgt.size i * mu
  let g := allgatherv D.P recv loc (fun _ => 0)
  (List.range mu).foldl (fun o i =>
    let col := if mu ≠ 1 then (List.range D.P).foldl (fun c j => Buf.at' (displs recv j / mu)
        (copyN (recv j / mu) (g.from' (displs recv j + i * recv j / mu))) c) (fun _ => 0)
      else g.from' (i * nb)
    Buf.at' (i * nb) (D.tgt.p2g col) o) (x r)

/-- `DDM::solve` (solvers/ddm.hpp 107-207) with the Krylov method as an arbitrary function of its right-hand sides and of the initial
guess 0. -/
def ddmSolve (D : DOp R) (X : Subdomains) (krylov : (ℕ → Buf R) → ℕ → ℕ → Buf R) (rhs x : ℕ → Buf R) (mu : ℕ) : ℕ → Buf R :=
  ddmGather D X (krylov (ddmRhs D X rhs mu) mu) x mu

end Htool
