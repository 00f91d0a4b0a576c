import Verif.Props.TwoLevel
import Verif.Props.DistributedBuilt

/-! # From the generator to the coarse operator (C43, C49, C78)

The theorems on sub-matrix products, coarse operators and two-level set-ups suppose that the distributed operator multiplies parts of vectors like a matrix (`SubOK`). Here this is
proved for operators built from a cluster tree and the user's coefficients, under any schedule. -/

namespace Htool
open Finset
variable {R : Type*} [CommRing R] [StarRing R] {G : Type*} [DecidableEq R] {P : ℕ} {ct : ClusterTree G} {perm : List ℕ} {E : ℕ → BEnv G} {sym : SymType}
  {cplx : Bool} {ug : ℕ → ℕ → R} {close : R → R → Prop} {K : ℕ → LocalKernel R}

/-- One matrix, entrywise `close` to the user's coefficients, describes both the products and the sub-matrix products of the operator. -/
theorem DistBuild.subOK (h : DistBuild P ct ct perm perm E sym cplx ug close K) (u : Bool) :
    ∃ M : ℕ → ℕ → R, (∀ a < ct.root.sz, ∀ b < ct.root.sz, close (M a b) (ug (perm.getD a 0) (perm.getD b 0))) ∧
      (fromHMatrix P ct ct perm perm sym u K).ActsVec M ∧ (fromHMatrix P ct ct perm perm sym u K).SubOK M := by
  obtain ⟨M, ⟨a1, -, -, a4⟩, N, hM, hN⟩ := h.acts_local u
  refine ⟨M, a4, a1, ?_⟩
  have hok := (h.ok u).tgt
  refine DOp.subOK_of hok (fun r => LocalOp.mk perm ((fromHMatrix P ct ct perm perm sym u K).tgt.off r) ((fromHMatrix P ct ct perm perm sym u K).tgt.size r)
    perm ct.root.off ct.root.sz sym.toH false false (K r)) N (fun r _ => rfl) (fun r hr => (hN r hr).1) (fun r _ => ?_) (fun r hr => (hN r hr).2)
    (fun r hr => ⟨rfl, rfl, h.troot, rfl, rfl⟩) (fun r hr k hk l _ => hM r hr k hk l)
  show sym.toH ≠ .nul
  cases sym <;> simp [SymType.toH]

/-- **C49 (from the generator to the coarse operator).** Each of the `P` ranks builds its rows from the user's coefficients `ug` under its own schedule. Then there is a matrix `M`,
entrywise `close` to the coefficients in cluster numbering and with which the operator multiplies, such that for all numbers of vectors and all vectors the coarse operator is
computed, and the entry of row `z` and column `z'` is `z'ᵀ M z` (`z` conjugated for a hermitian operator). -/
theorem C49_built (h : DistBuild P ct ct perm perm E sym cplx ug close K) (u : Bool) :
    ∃ M : ℕ → ℕ → R, (∀ a < ct.root.sz, ∀ b < ct.root.sz, close (M a b) (ug (perm.getD a 0) (perm.getD b 0))) ∧
      (fromHMatrix P ct ct perm perm sym u K).ActsVec M ∧
      ∀ (nevi : ℕ → ℕ) (Z : ℕ → ℕ → Buf R), ∃ C, geneoCoarse (fromHMatrix P ct ct perm perm sym u K) nevi Z = some C ∧
        ∀ i < P, ∀ j < nevi i, ∀ r < P, ∀ jj < nevi r, C (∑ q ∈ range i, nevi q + j) (∑ q ∈ range r, nevi q + jj) =
          ∑ a ∈ range ct.root.sz, ∑ b ∈ range ct.root.sz, coarseVec (fromHMatrix P ct ct perm perm sym u K) Z r jj a * M a b *
            (if sym = .H then star (coarseVec (fromHMatrix P ct ct perm perm sym u K) Z i j b) else coarseVec (fromHMatrix P ct ct perm perm sym u K) Z i j b) := by
  obtain ⟨M, h1, h2, h3⟩ := h.subOK u
  refine ⟨M, h1, h2, fun nevi Z => ?_⟩
  obtain ⟨C, c1, c2⟩ := C49_entries (h.ok u).tgt h3 nevi Z
  refine ⟨C, c1, fun i hi j hj r hr jj hjj => ?_⟩
  have := c2 i hi j hj r hr jj hjj
  rw [TwoLevel.displs_sum, TwoLevel.displs_sum] at this
  rw [this, coarseEntry]
  have hs : ((fromHMatrix P ct ct perm perm sym u K).sym = .H) = (sym = .H) := by
    show (sym.toH = .H) = _
    cases sym <;> simp [SymType.toH]
  simp only [hs]
  rfl

/-- The hypothesis is met by an operator with symmetric integer coefficients on two ranks. -/
example : ∃ (ct : ClusterTree (List ℕ)) (perm : List ℕ) (E : ℕ → BEnv (List ℕ)) (K : ℕ → LocalKernel ℤ),
    DistBuild 2 ct ct perm perm E .S false (fun k l => (k : ℤ) * l + k + l) Eq K := by
  obtain ⟨ct, perm, E, K, h, -⟩ := exDist
  exact ⟨ct, perm, E, K, h⟩

end Htool

namespace Htool.TwoLevel
open Finset
variable {G : Type*} {P : ℕ} {ct : ClusterTree G} {perm : List ℕ} {E : ℕ → BEnv G} {sym : SymType} {ug : ℕ → ℕ → ℝ} {K : ℕ → LocalKernel ℝ} {ε : ℝ}

/-- **C78 (from the generator to the two-level set-up).** Real coefficients, symmetric on the unknowns; each rank builds its rows with blocks entrywise within `ε` of the coefficients
(this is no condition on dense blocks). After any history of calls, each entry of the coarse matrix given to HPDDM differs from the entry `zᵀ A z'` of the Galerkin matrix of the
user's coefficients by at most `ε ‖z‖₁ ‖z'‖₁`, where `z` and `z'` are the vectors of the last coarse space, extended by zero outside of the unknowns of their process. -/
theorem C78_built (h : DistBuild P ct ct perm perm E sym false ug (fun x y => |x - y| ≤ ε) K) (u : Bool)
    (hsym : ∀ k < ct.root.sz, ∀ l < ct.root.sz, ug k l = ug l k) {X : Subdomains}
    (hX : ∀ r < P, (fromHMatrix P ct ct perm perm sym u K).tgt.size r ≤ X.N r) {l : List (Op ℝ)}
    (hz : ∀ Z ∈ spaces l, Sized (fromHMatrix P ct ct perm perm sym u K) X Z) {s : St ℝ}
    (e : run (fromHMatrix P ct ct perm perm sym u K) X St.init l = some s) (Z : ℕ → Mat ℝ) (hl : (spaces l).getLast? = some Z) :
    ∃ C, s.coarse = some (∑ r ∈ range P, (Z r).nc, C) ∧
      ∀ i < P, ∀ j < (Z i).nc, ∀ r < P, ∀ jj < (Z r).nc,
        |C (∑ q ∈ range i, (Z q).nc + j) (∑ q ∈ range r, (Z q).nc + jj) -
            ∑ a ∈ range ct.root.sz, ∑ b ∈ range ct.root.sz, extended (fromHMatrix P ct ct perm perm sym u K) Z i j a *
              ug (perm.getD a 0) (perm.getD b 0) * extended (fromHMatrix P ct ct perm perm sym u K) Z r jj b| ≤
          ε * (∑ a ∈ range ct.root.sz, |extended (fromHMatrix P ct ct perm perm sym u K) Z i j a|) *
            ∑ b ∈ range ct.root.sz, |extended (fromHMatrix P ct ct perm perm sym u K) Z r jj b| := by
  obtain ⟨M, h1, -, h3⟩ := h.subOK u
  obtain ⟨-, -, -, C, c1, c2⟩ := (C78_any_operator (h.ok u).tgt h3 hX hz e).2 Z hl
  refine ⟨C, c1, fun i hi j hj r hr jj hjj => ?_⟩
  have hn : (fromHMatrix P ct ct perm perm sym u K).tgt.n = ct.root.sz := rfl
  rw [c2 i hi j hj r hr jj hjj, hn, Finset.sum_comm, ← Finset.sum_sub_distrib]
  simp only [← Finset.sum_sub_distrib]
  generalize extended (fromHMatrix P ct ct perm perm sym u K) Z i j = x
  generalize extended (fromHMatrix P ct ct perm perm sym u K) Z r jj = y
  have hlt : ∀ a < ct.root.sz, perm.getD a 0 < ct.root.sz := by
    intro a ha
    obtain ⟨-, -, -, h4⟩ := userIdx_eq h.tperm_ok ha
    rwa [userIdx_zero] at h4
  have key : ∀ a ∈ range ct.root.sz, ∀ b ∈ range ct.root.sz,
      |y b * M b a * (if (fromHMatrix P ct ct perm perm sym u K).sym = .H then star (x a) else x a) - x a * ug (perm.getD a 0) (perm.getD b 0) * y b| ≤
        ε * |x a| * |y b| := by
    intro a ha b hb
    have ha := Finset.mem_range.1 ha
    have hb := Finset.mem_range.1 hb
    have h4 := h1 b hb a ha
    rw [star_trivial, ite_self, hsym _ (hlt a ha) _ (hlt b hb)]
    rw [show y b * M b a * x a - x a * ug (perm.getD b 0) (perm.getD a 0) * y b = (M b a - ug (perm.getD b 0) (perm.getD a 0)) * (x a * y b) by ring, abs_mul, abs_mul, mul_assoc ε]
    exact mul_le_mul_of_nonneg_right h4 (mul_nonneg (abs_nonneg _) (abs_nonneg _))
  refine (Finset.abs_sum_le_sum_abs _ _).trans ?_
  rw [mul_assoc, Finset.sum_mul_sum, Finset.mul_sum]
  refine Finset.sum_le_sum fun a ha => ?_
  refine (Finset.abs_sum_le_sum_abs _ _).trans ?_
  rw [Finset.mul_sum]
  refine Finset.sum_le_sum fun b hb => ?_
  rw [← mul_assoc]
  exact key a ha b hb

/-- The hypotheses are met: two ranks, an overlap of one unknown, accuracy `1/8`, a history with two coarse spaces of one and two vectors per process. -/
example : ∃ (ct : ClusterTree (List ℕ)) (perm : List ℕ) (E : ℕ → BEnv (List ℕ)) (K : ℕ → LocalKernel ℝ) (X : Subdomains) (l : List (Op ℝ)) (s : St ℝ) (Z : ℕ → Mat ℝ),
    DistBuild 2 ct ct perm perm E .S false (fun k l => 1 / ((k : ℝ) + l + 1)) (fun x y => |x - y| ≤ 1 / 8) K ∧
    (∀ r < 2, (fromHMatrix 2 ct ct perm perm .S true K).tgt.size r ≤ X.N r) ∧ (∀ Z ∈ spaces l, Sized (fromHMatrix 2 ct ct perm perm .S true K) X Z) ∧
    run (fromHMatrix 2 ct ct perm perm .S true K) X St.init l = some s ∧ (spaces l).getLast? = some Z ∧ ∀ r, (Z r).nc = 2 := by
  obtain ⟨ct, perm, E, K, h, -⟩ := exDistOf (R := ℝ) (fun x => star_trivial x) (close := fun x y => |x - y| ≤ 1 / 8)
    ⟨fun x => by norm_num, fun x y h => by simpa using h⟩ (fun k l => 1 / ((k : ℝ) + l + 1)) (fun k l => by rw [add_comm (l : ℝ)])
  obtain ⟨M, -, -, h3⟩ := h.subOK true
  set D := fromHMatrix 2 ct ct perm perm .S true K with hD
  let X : Subdomains := ⟨fun r => D.tgt.size r + 1, fun _ => []⟩
  let Z (c : ℕ) (r : ℕ) : Mat ℝ := ⟨D.tgt.size r + 1, c, fun p => p + r⟩
  have hz : ∀ Z' ∈ spaces [Op.facto, .coarseSpace (Z 1), .solve, .coarseSpace (Z 2), .solve], Sized D X Z' := by
    intro Z' h'
    simp only [spaces, List.filterMap_cons, List.filterMap_nil, List.mem_cons, List.not_mem_nil, or_false] at h'
    rcases h' with rfl | rfl <;> exact fun r _ => rfl
  obtain ⟨s, hs⟩ := (C78_defined (X := X) (h.ok true).tgt h3 (fun r _ => Nat.le_succ _) hz).2 (by simp [CleanLast])
  exact ⟨ct, perm, E, K, X, _, s, Z 2, h, fun r _ => Nat.le_succ _, hz, hs, rfl, fun r => rfl⟩

end Htool.TwoLevel
