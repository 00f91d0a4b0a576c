import Verif.Props.HLinTriAcc
import Verif.Props.HLinCholAcc

/-! # C36 for built H-matrices, hierarchical right-hand sides, with the compressions of the library -/

namespace Htool
open Finset
variable {G 𝕜 : Type*} [RCLike 𝕜] [DecidableEq 𝕜]

section built
variable {D : Type*} {S : Strategies D G} {flog : ℕ → ℕ → ℕ} {fuel n nc : ℕ} {arg : PartArg} {t : CTree G} {st : CState G} {E₁ E₂ : BEnv G}
  {L : LinOps 𝕜}

/-- **C36**, for two H-matrices `A`, `B` built on the same cluster tree, each under any schedule, with any compressor, admissibility condition and minimal depths. `A`
has no symmetry flag or is stored by the triangle `u`; `B` has no symmetry flag. `internal_triangular_hmatrix_hmatrix_solve` with the compressions of the library,
from the left and from the right, ends, and the entries of the residual `op(T) X - alpha B` (`X op(T) - alpha B`), `T` being the triangle of the represented matrix,
are at most `((1 + eps) ^ k - 1) (|alpha| ‖B‖ + ‖T‖ ‖X‖)`. All in cluster numbering. -/
theorem C36_built_accuracy (h1 : Setting S flog fuel n nc arg t st E₁) (h2 : Setting S flog fuel n nc arg t st E₂) (hN : E₂.sym = .N)
    (hp : arg.oneLevel flog nc) {u : UploType} (hu : u ≠ .N) (hup : E₁.sym = .N ∨ E₁.uplo = u) {lr₁ lr₂ : LRGen 𝕜} {dg₁ dg₂ : Option (DenseGen 𝕜)}
    {g₁ g₂ : ℕ → ℕ → 𝕜} {T : ℕ} (hT : 0 < T) {f₁ f₂ : ℕ} {m₁ m₁' m₂ m₂' : Mem 𝕜} {B₁ B₂ : Builder} {H₁ H₂ : Tree ℕ}
    (b1 : BuildStep T E₁ lr₁ dg₁ f₁ t t g₁ m₁ Builder.empty m₁' B₁ H₁) (b2 : BuildStep T E₂ lr₂ dg₂ f₂ t t g₂ m₂ Builder.empty m₂' B₂ H₂)
    {A B : FTree G 𝕜} (hA : InMemory E₁ f₁ t m₁' H₁ A) (hB : InMemory E₂ f₂ t m₂' H₂ B) {gesvd : Mat 𝕜 → SVDOut 𝕜} {geqrf gelqf : Mat 𝕜 → OrthOut 𝕜} {eps : ℝ}
    (hE : L.UsesSVD gesvd geqrf gelqf eps) (hl : LapackOK gesvd geqrf gelqf) (he : 0 ≤ eps) (hTr : TrsmOK L) (tr : Trans) {unit : Bool}
    (hinv : unit = false → ∀ i < n, HTree.entry (H₁.map m₁'.heap) i i ≠ 0) (α : 𝕜) {f : ℕ} (hf : A.ht + B.ht ≤ f) :
    (∃ X x, triHH L f .L u tr unit α A B = some X ∧ Rep .full E₂.admC x X ∧ X.label.t = B.label.t ∧ X.label.s = B.label.s ∧ ∀ i < n, ∀ k < n,
      ‖∑ l ∈ range n, opE tr (tri u unit (HTree.entry (H₁.map m₁'.heap))) i l * x l k - α * HTree.entry (H₂.map m₂'.heap) i k‖ ≤
        ((1 + eps) ^ solveTruncs (max nc arg.count) A.ht B.ht - 1) *
          (‖α‖ * frob n n (HTree.entry (H₂.map m₂'.heap)) + frob n n (tri u unit (HTree.entry (H₁.map m₁'.heap))) * frob n n x)) ∧
    (∃ X x, triHH L f .R u tr unit α A B = some X ∧ Rep .full E₂.admC x X ∧ X.label.t = B.label.t ∧ X.label.s = B.label.s ∧ ∀ k < n, ∀ j < n,
      ‖∑ l ∈ range n, x k l * opE tr (tri u unit (HTree.entry (H₁.map m₁'.heap))) l j - α * HTree.entry (H₂.map m₂'.heap) k j‖ ≤
        ((1 + eps) ^ solveTruncs (max nc arg.count) A.ht B.ht - 1) *
          (‖α‖ * frob n n (HTree.entry (H₂.map m₂'.heap)) + frob n n x * frob n n (tri u unit (HTree.entry (H₁.map m₁'.heap))))) := by
  obtain ⟨r1, r2, r3, r4⟩ := (h1.view hT b1).2 A hA
  obtain ⟨s1, s2, s3, -⟩ := (h2.view hT b2).2 B hB
  obtain ⟨o1, o2, o3⟩ := clusterTree_off h1
  have hmask : MaskOK u E₁.mask := by
    unfold BEnv.mask
    by_cases hs : E₁.sym = .N
    · rw [if_pos hs]; exact Or.inl rfl
    · rw [if_neg hs]
      rcases hup with hup | hup
      · exact absurd hup hs
      · rw [hup]
        cases u with
        | N => exact absurd rfl hu
        | L => exact Or.inr (Or.inl ⟨rfl, rfl⟩)
        | U => exact Or.inr (Or.inr ⟨rfl, rfl⟩)
  have full : E₂.mask = .full := by unfold BEnv.mask; rw [if_pos hN]
  rw [full] at s1
  have et : E₂.tct = E₁.tct := h2.tct.trans h1.tct.symm
  rw [et] at s2 s3
  have op : TriOperand u unit E₁.mask E₁.admC (HTree.entry (H₁.map m₁'.heap)) A :=
    ⟨r1, hu, hmask, r2.trans r3.symm, r2 ▸ h1.top, h1.admC, r4, fun hn i hi => (hinv hn i (by rw [r2, o3] at hi; exact (mem_Ico.1 hi).2)).isUnit⟩
  have ar : E₁.tct.Arity (max nc arg.count) := by rw [h1.tct]; exact h1.built.arity hp
  have hrk : E₁.tct.rk = t.rk := by rw [h1.tct]; rfl
  have fr : ∀ (N : ℕ → ℕ → 𝕜) (X : FTree G 𝕜), X.label.t = E₁.tct → X.label.s = E₁.tct → frobOn N X = frob n n N := by
    intro N X e1 e2
    unfold frobOn
    rw [e1, e2, o1, o2]
    refine frob_congr fun i _ j _ => ?_
    unfold rel
    rw [Nat.zero_add, Nat.zero_add]
  have hr : A.isHier = true ∨ 0 ≤ t.rk := by
    by_cases hA' : A.isHier = true
    · exact Or.inl hA'
    · have := ((Shape.self r1).leaf (by simpa using hA')).2.1
      rw [r2, hrk] at this
      exact Or.inr this
  have ico : Ico E₁.tct.off E₁.tct.fin = range n := by rw [o1, o3, Finset.range_eq_Ico]
  constructor
  · obtain ⟨X, x, e1, e2, e3, e4, e5⟩ := C36_accuracy_left (hE.acc hl he) he hTr tr op α s1 (s2.trans r2.symm) (s3 ▸ h1.top) (by rw [s3, hrk]; exact hr)
      (by rw [r2]; exact ar) (by rw [s3]; exact ar) hf
    refine ⟨X, x, e1, e4, e2, e3, fun i hi k hk => ?_⟩
    have v := e5 i (by rw [s2, ico]; exact mem_range.2 hi) k (by rw [s3, ico]; exact mem_range.2 hk)
    rw [fr _ B s2 s3, fr _ A r2 r3, fr _ X (e2.trans s2) (e3.trans s3), s2, ico] at v
    exact v
  · obtain ⟨X, x, e1, e2, e3, e4, e5⟩ := C36_accuracy_right (hE.acc hl he) he hTr tr op α s1 (s3.trans r2.symm) (s2 ▸ h1.top) (by rw [s2, hrk]; exact hr)
      (by rw [r2]; exact ar) (by rw [s2]; exact ar) hf
    refine ⟨X, x, e1, e4, e2, e3, fun k hk j hj => ?_⟩
    have v := e5 k (by rw [s2, ico]; exact mem_range.2 hk) j (by rw [s3, ico]; exact mem_range.2 hj)
    rw [fr _ B s2 s3, fr _ A r2 r3, fr _ X (e2.trans s2) (e3.trans s3), s3, ico] at v
    exact v

/-- An entry which is stored is an entry of a leaf. -/
theorem leaf_of_entry {m : Mask} {ad : ClusterTree G → ClusterTree G → Prop} {M : ℕ → ℕ → 𝕜} {A : FTree G 𝕜} (h : Rep m ad M A) {i j : ℕ} (hok : m.ok i j)
    (hij : A.label.Has i j) : ∃ X ∈ A.leaves, FTree.isHier X = false ∧ ∀ N : ℕ → ℕ → 𝕜, ‖N i j‖ ≤ frobOn N X := by
  obtain ⟨X, hX, hi⟩ := Shape.leaves_ok h hok hij
  have hXp := ((Tree.mem_leaves_iff _ _).1 hX).1
  have hd : FTree.isHier X = false := by
    by_contra hh
    obtain ⟨Y, hY, -⟩ := ((Shape.sub h hXp).children_mask (by simpa using hh) i j).2 hok hi
    rw [((Tree.mem_leaves_iff _ _).1 hX).2] at hY
    cases hY
  refine ⟨X, hX, hd, fun N => ?_⟩
  have b : i - X.label.t.off < X.label.t.sz ∧ j - X.label.s.off < X.label.s.sz := hi.sub
  have e1 : X.label.t.off + (i - X.label.t.off) = i := by unfold FNode.Has at hi; omega
  have e2 : X.label.s.off + (j - X.label.s.off) = j := by unfold FNode.Has at hi; omega
  refine (le_of_eq ?_).trans (entry_le_frob (rel N X.label.t.off X.label.s.off) b.1 b.2)
  unfold rel
  rw [e1, e2]

/-- **C57**, for built H-matrices, when the result is stored by one half: `A` and `B` have no symmetry flag, `C` is built on the same cluster tree with any flag, and
becomes `alpha op(A) op(B) + beta C` with the compressions of the library. In the half which is stored (everything without flag) every entry is the one of the exact
result up to `((1 + eps) ^ k - 1) (|beta| ‖C‖ + |alpha| ‖A‖ ‖B‖)`. Missing from the full claim: as in `C57_built_accuracy_partial`. -/
theorem C57_built_accuracy_half_partial {E₃ : BEnv G} (h1 : Setting S flog fuel n nc arg t st E₁) (h2 : Setting S flog fuel n nc arg t st E₂)
    (h3 : Setting S flog fuel n nc arg t st E₃) (hN : E₁.sym = .N ∧ E₂.sym = .N) (hp : arg.oneLevel flog nc)
    {lr₁ lr₂ lr₃ : LRGen 𝕜} {dg₁ dg₂ dg₃ : Option (DenseGen 𝕜)} {g₁ g₂ g₃ : ℕ → ℕ → 𝕜} {T : ℕ} (hT : 0 < T) {f₁ f₂ f₃ : ℕ}
    {m₁ m₁' m₂ m₂' m₃ m₃' : Mem 𝕜} {B₁ B₂ B₃ : Builder} {H₁ H₂ H₃ : Tree ℕ}
    (b1 : BuildStep T E₁ lr₁ dg₁ f₁ t t g₁ m₁ Builder.empty m₁' B₁ H₁) (b2 : BuildStep T E₂ lr₂ dg₂ f₂ t t g₂ m₂ Builder.empty m₂' B₂ H₂)
    (b3 : BuildStep T E₃ lr₃ dg₃ f₃ t t g₃ m₃ Builder.empty m₃' B₃ H₃) {A B C : FTree G 𝕜} (hA : InMemory E₁ f₁ t m₁' H₁ A)
    (hB : InMemory E₂ f₂ t m₂' H₂ B) (hC : InMemory E₃ f₃ t m₃' H₃ C) {gesvd : Mat 𝕜 → SVDOut 𝕜} {geqrf gelqf : Mat 𝕜 → OrthOut 𝕜} {eps : ℝ}
    (hE : L.UsesSVD gesvd geqrf gelqf eps) (hl : LapackOK gesvd geqrf gelqf) (he : 0 ≤ eps) (ta tb : Trans) (α β : 𝕜)
    (hβ : β = 1 ∨ C.isHier = false ∨ (A.isHier = true ∧ B.isHier = true)) {f : ℕ} (hf : A.ht + B.ht ≤ f) :
    ∃ C' M', hhH L f ta tb α A B β C = some C' ∧ C'.label.t = C.label.t ∧ C'.label.s = C.label.s ∧ Rep E₃.mask E₃.admC M' C' ∧
      ∀ i < n, ∀ j < n, (E₃.sym = .N ∨ InHalf E₃.uplo i j) → ‖M' i j -
        (α * ∑ l ∈ range n, opE ta (HTree.entry (H₁.map m₁'.heap)) i l * opE tb (HTree.entry (H₂.map m₂'.heap)) l j + β * HTree.entry (H₃.map m₃'.heap) i j)‖ ≤
        ((1 + eps) ^ truncs (max nc arg.count) (A.ht + 1) - 1) * (‖β‖ * frob n n (HTree.entry (H₃.map m₃'.heap)) +
          ‖α‖ * (frob n n (HTree.entry (H₁.map m₁'.heap)) * frob n n (HTree.entry (H₂.map m₂'.heap)))) := by
  have full : ∀ {E : BEnv G}, E.sym = .N → E.mask = .full := fun h => by unfold BEnv.mask; rw [if_pos h]
  obtain ⟨a1, a2, a3, -⟩ := (h1.view hT b1).2 A hA
  obtain ⟨c1, c2, c3, -⟩ := (h2.view hT b2).2 B hB
  obtain ⟨d1, d2, d3, -⟩ := (h3.view hT b3).2 C hC
  rw [full hN.1] at a1
  rw [full hN.2] at c1
  rw [h1.tct] at a2 a3
  rw [h2.tct] at c2 c3
  rw [h3.tct] at d2 d3
  have o := clusterTree_off h1
  rw [h1.tct] at o
  have fl := h1.built.flat hp
  have ar := h1.built.arity hp
  have inA : ∀ tr, A.inC tr = clusterTreeOf t st := fun tr => by cases tr <;> [exact a3; exact a2; exact a2]
  have outA : ∀ tr, A.outC tr = clusterTreeOf t st := fun tr => by cases tr <;> [exact a2; exact a3; exact a3]
  have inB : ∀ tr, B.inC tr = clusterTreeOf t st := fun tr => by cases tr <;> [exact c3; exact c2; exact c2]
  have outB : ∀ tr, B.outC tr = clusterTreeOf t st := fun tr => by cases tr <;> [exact c2; exact c3; exact c3]
  obtain ⟨C', M', e1, e2, e3, e4, e5⟩ := C57_accuracy_half_partial (hE.acc hl he) he ta tb α β a1 c1 d1 (Or.inr ⟨d2.trans d3.symm, h3.admC⟩)
    (by rw [a2, a3]; exact ⟨fl, fl⟩) (by rw [c2, c3]; exact ⟨fl, fl⟩) (by rw [a2, a3]; exact ⟨ar, ar⟩) (by rw [c2, c3]; exact ⟨ar, ar⟩)
    (by rw [inA, outB]) (by rw [outA, d2]) (by rw [inB, d3]) hβ hf
  refine ⟨C', M', e1, e2, e3, e4, fun i hi j hj hh => ?_⟩
  have hok : E₃.mask.ok i j := by
    unfold BEnv.mask
    by_cases hs : E₃.sym = .N
    · rw [if_pos hs]; trivial
    · rw [if_neg hs]
      rcases hh with hh | hh
      · exact absurd hh hs
      · have hu := h3.uplo hs
        revert hu hh
        cases E₃.uplo with
        | N => exact fun _ hu => absurd rfl hu
        | L =>
          intro hh _
          show j ≤ i
          rcases hh with ⟨-, h⟩ | ⟨h, -⟩
          · exact h
          · cases h
        | U =>
          intro hh _
          show i ≤ j
          rcases hh with ⟨h, -⟩ | ⟨-, h⟩
          · cases h
          · exact h
  have has : C'.label.Has i j := by
    unfold FNode.Has
    rw [e2, e3, d2, d3, o.1, o.2.2]
    omega
  obtain ⟨X, x1, x2, x3⟩ := leaf_of_entry e4 hok has
  have fr : ∀ (N : ℕ → ℕ → 𝕜) (X : FTree G 𝕜), X.label.t = clusterTreeOf t st → X.label.s = clusterTreeOf t st → frobOn N X = frob n n N := by
    intro N X e1 e2
    unfold frobOn
    rw [e1, e2, o.1, o.2.1]
    refine frob_congr fun i _ j _ => ?_
    unfold rel
    rw [Nat.zero_add, Nat.zero_add]
  have v := (x3 _).trans (e5 X x1 x2)
  beta_reduce at v
  rw [if_pos hok, inA, o.1, o.2.2, ← Finset.range_eq_Ico, fr _ A a2 a3, fr _ B c2 c3, fr _ C d2 d3] at v
  exact v

end built

/-! ## The hypotheses can be met -/

/-- Two H-matrices on 12 points: a hermitian one stored by its lower triangle, with nonzero diagonal, and one without symmetry flag; tolerance 1/100.
The first serves as the half-stored result of `C57_built_accuracy_half_partial`, the second as both factors. -/
example : ∃ (gesvd : Mat ℂ → SVDOut ℂ) (geqrf gelqf : Mat ℂ → OrthOut ℂ) (L : LinOps ℂ) (t : CTree (List ℕ)) (st : CState (List ℕ)) (E₁ E₂ : BEnv (List ℕ))
    (m₁ m₂ : Mem ℂ) (B₁ B₂ : Builder) (H₁ H₂ : Tree ℕ) (A B : FTree (List ℕ) ℂ), LapackOK gesvd geqrf gelqf ∧ L.UsesSVD gesvd geqrf gelqf (1 / 100) ∧
      TrsmOK L ∧ Setting exStrategies Nat.log 16 12 2 (.auto 2) t st E₁ ∧ Setting exStrategies Nat.log 16 12 2 (.auto 2) t st E₂ ∧ E₁.sym = .H ∧ E₁.uplo = .L ∧
      E₂.sym = .N ∧ (PartArg.auto 2).oneLevel Nat.log 2 ∧
      BuildStep 3 E₁ (exactLr ℂ) none 100 t t (fun i j => ((min i j + 1 : ℕ) : ℂ)) (memZero ℂ) Builder.empty m₁ B₁ H₁ ∧
      BuildStep 3 E₂ (exactLr ℂ) none 100 t t (fun i j => ((i + 2 * j : ℕ) : ℂ)) (memZero ℂ) Builder.empty m₂ B₂ H₂ ∧
      InMemory E₁ 100 t m₁ H₁ A ∧ InMemory E₂ 100 t m₂ H₂ B ∧ ∀ i < 12, HTree.entry (H₁.map m₁.heap) i i ≠ 0 := by
  obtain ⟨gesvd, geqrf, gelqf, L, hl, hE, hE', -⟩ := svd_solve_ops_exist (𝕜 := ℂ) true (by simp) (1 / 100) (fun D => (D, [])) (fun _ D => D)
  obtain ⟨t, st, h, hS, hB⟩ := exSetting ℂ .H .L (by simp)
  obtain ⟨t', st', h', hS', hB'⟩ := exSetting ℂ .N .N (by simp)
  obtain ⟨rfl, rfl⟩ := Prod.mk.inj (Option.some.inj (h.symm.trans h'))
  obtain ⟨m₁, B₁, H₁, A, p1, p2⟩ := hB (fun i j => ((min i j + 1 : ℕ) : ℂ))
  obtain ⟨m₂, B₂, H₂, B, q1, q2⟩ := hB' (fun i j => ((i + 2 * j : ℕ) : ℂ))
  obtain ⟨o1, o2, -⟩ := hS.perm
  have hg : UserGen (R := ℂ) (exEnv t st none none .H .L) true none (fun i j => ((min i j + 1 : ℕ) : ℂ)) t.iv :=
    ⟨by simp [exEnv], by simp [exEnv], fun _ => ⟨rfl, fun i j _ _ => by rw [Nat.min_comm]; simp⟩, by simp⟩
  obtain ⟨-, -, -, hc⟩ := C19_built_operator (T := 3) (by omega) hS.covered hg (close := (· = ·)) ⟨fun _ => rfl, fun _ _ h => congrArg _ h⟩ (exactLr_ok _) p1
  refine ⟨gesvd, geqrf, gelqf, L, t, st, _, _, m₁, m₂, B₁, B₂, H₁, H₂, A, B, hl, hE, hE', hS, hS', rfl, rfl, rfl, Or.inr (show Nat.log 2 2 = 1 by decide), p1, q1, p2, q2,
    fun i hi => ?_⟩
  rw [hc i i (by unfold InIv Tree.iv; simp only; omega) (by unfold InIv Tree.iv; simp only; omega)]
  exact Nat.cast_ne_zero.2 (Nat.succ_ne_zero _)

end Htool
