import Verif.Props.DistributedOps
import Verif.Props.Numbering

/-! # From cluster trees and generator to distributed products (C39, C40, C41) -/

namespace Htool
variable {R : Type*} [CommRing R] [StarRing R]
open Finset
open Htool.Tree (iv)

/-- `DistributedOperatorFromHMatrix` with a builder whose two partition numbers are the rank, as in `DefaultApproximationBuilder`
(distributed_operator/utility.hpp 29-58, 60-83): rank `r` holds one `LocalHMatrix`, with the cluster of partition `r` as target and the
source cluster of the builder, without permutation flags. -/
def fromHMatrix {G : Type*} (P : ℕ) (tct sct : ClusterTree G) (tperm sperm : List ℕ) (sym : SymType) (usePerm : Bool)
    (K : ℕ → LocalKernel R) : DOp R where
  P := P
  tgt := ⟨tperm, tct.root.sz, tct.parts.map iv⟩
  src := ⟨sperm, sct.root.sz, sct.parts.map iv⟩
  ops := fun r => [(LocalOp.mk tperm ((tct.parts.map iv).getD r (0, 0)).1 ((tct.parts.map iv).getD r (0, 0)).2
    sperm sct.root.off sct.root.sz sym.toH false false (K r)).toVLO]
  usePerm := usePerm
  sym := sym.toH

omit [CommRing R] [StarRing R] in
theorem Part.OK.unique {p : Part} {P : ℕ} (h : p.OK P) {r s i j : ℕ} (hr : r < P) (hs : s < P) (hi : i < p.size r) (hj : j < p.size s)
    (he : p.off r + i = p.off s + j) : r = s := by
  have e1 := h.off_eq hr
  have e2 := h.off_eq hs
  rcases Nat.lt_trichotomy r s with hlt | hlt | hlt
  · have := displs_lt p.size hlt; omega
  · exact hlt
  · have := displs_lt p.size hlt; omega

/-- What is needed of the two cluster trees, of the settings of the builders on the `P` ranks, and of the H-matrices: all ranks use the same
trees, rank `r` builds the rows of partition `r`, under any schedule, with the coefficients of the user's generator `ug`. -/
structure DistBuild {G : Type*} [DecidableEq R] (P : ℕ) (tct sct : ClusterTree G) (tperm sperm : List ℕ) (E : ℕ → BEnv G) (sym : SymType)
    (cplx : Bool) (ug : ℕ → ℕ → R) (close : R → R → Prop) (K : ℕ → LocalKernel R) : Prop where
  real : cplx = false → RealType R
  close_ok : Closeness close
  twf : tct.WF ∧ tct.Pos
  swf : sct.WF ∧ sct.Pos
  troot : tct.root.off = 0
  sroot : sct.root.off = 0
  tperm_ok : LocalPerm tperm 0 tct.root.sz
  sperm_ok : LocalPerm sperm 0 sct.root.sz
  tparts : tct.parts.length = P
  sparts : sct.parts.length = P
  env : ∀ r < P, (E r).tct = tct ∧ (E r).sct = sct ∧ (E r).sym = sym ∧ (E r).tp = some r ∧ (E r).psym = some r
  symm : sym ≠ .N → sct = tct ∧ sperm = tperm ∧ ∀ r < P, (E r).uplo ≠ .N ∧ (E r).consistent = true
  symS : sym = .S → ∀ k < tct.root.sz, ∀ l < tct.root.sz, ug l k = ug k l
  symH : sym = .H → cplx = true ∧ ∀ k < tct.root.sz, ∀ l < tct.root.sz, ug l k = star (ug k l)
  build : ∀ r < P, ∃ (T : ℕ) (lr : LRGen R) (dg : Option (DenseGen R)) (fuel : ℕ) (m m' : Mem R) (B' : Builder) (H : Tree ℕ), 0 < T ∧
    UserLR close lr (permutedGen tperm sperm ug) ∧
    (∀ d, dg = some d → ∀ a b : ℕ × ℕ, ∀ i < a.2, ∀ j < b.2, d a b i j = permutedGen tperm sperm ug (a.1 + i) (b.1 + j)) ∧
    BuildStep T (E r) lr dg fuel tct.root sct.root (permutedGen tperm sperm ug) m Builder.empty m' B' H ∧
    HMatrixKernel (K r) cplx (H.map m'.heap)

variable {G : Type*} [DecidableEq R] {P : ℕ} {tct sct : ClusterTree G} {tperm sperm : List ℕ} {E : ℕ → BEnv G} {sym : SymType}
  {cplx : Bool} {ug : ℕ → ℕ → R} {close : R → R → Prop} {K : ℕ → LocalKernel R}

theorem DistBuild.ok (h : DistBuild P tct sct tperm sperm E sym cplx ug close K) (u : Bool) :
    (fromHMatrix P tct sct tperm sperm sym u K).OK := by
  refine ⟨⟨by simp [fromHMatrix, h.tparts], ?_, h.tperm_ok⟩, ⟨by simp [fromHMatrix, h.sparts], ?_, h.sperm_ok⟩⟩
  · have := h.twf.1.parts_tiles
    unfold Tree.fin at this
    rw [h.troot, Nat.zero_add] at this
    exact this
  · have := h.swf.1.parts_tiles
    unfold Tree.fin at this
    rw [h.sroot, Nat.zero_add] at this
    exact this

theorem DistBuild.covered (h : DistBuild P tct sct tperm sperm E sym cplx ug close K) {r : ℕ} (hr : r < P) :
    ∃ Pr, tct.parts[r]? = some Pr ∧ Covered (E r) tct.root sct.root Pr := by
  obtain ⟨e1, e2, e3, e4, e5⟩ := h.env r hr
  have hlen : r < tct.parts.length := by rw [h.tparts]; exact hr
  have hP : tct.parts[r]? = some tct.parts[r] := List.getElem?_eq_getElem hlen
  have hmem := h.twf.1.parts_mem _ (List.getElem_mem hlen)
  refine ⟨tct.parts[r], hP, ?_⟩
  have hroot := Tree.mem_pre_self tct.root
  have key : ¬ tct.root.rk < 0 → tct.root = tct.parts[r] := by
    intro hrk
    obtain ⟨Q, hQ, hQr⟩ := h.twf.1.ranked _ hroot (by omega)
    have hq : Q = tct.root := by
      rcases mem_pre_count hQr with h1 | h1
      · exact h1.symm
      · rcases mem_pre_count (h.twf.1.parts_mem _ hQ) with h2 | h2
        · exact h2
        · omega
    obtain ⟨q, hq1, hq2⟩ := List.getElem_of_mem hQ
    have hQ' : tct.parts[q]? = some Q := by rw [List.getElem?_eq_getElem hq1, hq2]
    have a1 := h.twf.1.parts_rank q Q hQ' tct.parts[r] (by rw [hq]; exact hmem)
    have a2 := h.twf.1.parts_rank r _ hP _ (Tree.mem_pre_self _)
    have : q = r := by omega
    subst this
    rw [hq2, hq]
  by_cases hs : sym = .N
  · by_cases hrk : tct.root.rk < 0
    · exact Covered.plainPart (p := r) (e1 ▸ h.twf.1) (e2 ▸ h.swf.1) (e1 ▸ h.twf.2) (e2 ▸ h.swf.2) (by rw [e3, hs]) (e1 ▸ hroot)
        (e2 ▸ Tree.mem_pre_self sct.root) e4 (e1 ▸ hP) hrk hmem
    · have he := key hrk
      have hrk' := h.twf.1.parts_rank r _ hP _ (Tree.mem_pre_self _)
      have := Covered.plain (E := E r) (t := tct.root) (s := sct.root) (e1 ▸ h.twf.1) (e2 ▸ h.swf.1) (e1 ▸ h.twf.2) (e2 ▸ h.swf.2)
        (by rw [e3, hs]) (e1 ▸ hroot) (e2 ▸ Tree.mem_pre_self sct.root) (Or.inr ⟨r, _, e4, (by rw [e1]; exact hP), by rw [he]; exact hrk'⟩)
      rw [← he]
      exact this
  · obtain ⟨s1, s2, s3⟩ := h.symm hs
    subst s1
    have hS : (E r).Symm := ⟨e1 ▸ h.twf.1, e1 ▸ h.twf.2, by rw [e1, e2], (s3 r hr).2, by rw [e3]; exact hs, (s3 r hr).1⟩
    by_cases hrk : sct.root.rk < 0
    · exact Covered.part (p := r) hS e5 e4 (e1 ▸ hP) (e1 ▸ hroot) hrk hmem
    · have he := key hrk
      have := Covered.loc (E := E r) (p := r) (P := sct.parts[r]) (s := sct.root) hS e5 (by rw [e1]; exact hP) (Or.inr e4) (e1 ▸ hroot)
        (Or.inr (by rw [e1, he]; exact List.getElem_mem hlen))
      rw [← he] at this ⊢
      exact this

/-- The settings and the coefficients are such that rank `r` can build its rows. -/
theorem DistBuild.userGen (h : DistBuild P tct sct tperm sperm E sym cplx ug close K) {r : ℕ} (hr : r < P) {Pr : CTree G}
    (hP : tct.parts[r]? = some Pr) {dg : Option (DenseGen R)}
    (hdg : ∀ d, dg = some d → ∀ a b : ℕ × ℕ, ∀ i < a.2, ∀ j < b.2, d a b i j = permutedGen tperm sperm ug (a.1 + i) (b.1 + j)) :
    UserGen (E r) cplx dg (permutedGen tperm sperm ug) Pr.iv := by
  obtain ⟨e1, e2, e3, e4, e5⟩ := h.env r hr
  have hok := h.ok false
  have hiv : (tct.parts.map iv).getD r (0, 0) = Pr.iv := by
    rw [List.getD_eq_getElem?_getD, List.getElem?_map, hP]; rfl
  have hb : Pr.off + Pr.sz ≤ tct.root.sz := by
    have := hok.tgt.bound (r := r) hr
    unfold Part.off Part.size fromHMatrix at this
    simp only [hiv] at this
    exact this
  have hlt : ∀ i, InIv i Pr.iv → tperm.getD i 0 < tct.root.sz := by
    intro i hi
    have hi' : i < tct.root.sz := by unfold InIv Tree.iv at hi; simp only at hi; omega
    obtain ⟨-, -, -, h4⟩ := userIdx_eq h.tperm_ok hi'
    simpa only [userIdx_zero] using h4
  refine ⟨fun hs => ?_, fun hs => ?_, fun hs => ?_, hdg⟩
  · exact ((h.symm (by rw [← e3]; exact hs)).2.2 r hr).1
  · intro i j hi hj
    rw [e3] at hs
    obtain ⟨s1, s2, s3⟩ := h.symm (by rw [hs]; simp)
    unfold permutedGen
    rw [s2]
    exact h.symS hs _ (hlt i hi) _ (hlt j hj)
  · rw [e3] at hs
    obtain ⟨s1, s2, s3⟩ := h.symm (by rw [hs]; simp)
    refine ⟨(h.symH hs).1, fun i j hi hj => ?_⟩
    unfold permutedGen
    rw [s2]
    exact (h.symH hs).2 _ (hlt i hi) _ (hlt j hj)

/-- The distributed operator multiplies like one matrix, entrywise `close` to the user's coefficients, and the local operator of each rank like its rows. -/
theorem DistBuild.acts_local (h : DistBuild P tct sct tperm sperm E sym cplx ug close K) (u : Bool) :
    ∃ M : ℕ → ℕ → R, ((fromHMatrix P tct sct tperm sperm sym u K).ActsVec M ∧ (fromHMatrix P tct sct tperm sperm sym u K).ActsMat M ∧
      (sym = .N → (fromHMatrix P tct sct tperm sperm sym u K).ActsVecT M ∧ (fromHMatrix P tct sct tperm sperm sym u K).ActsMatT M) ∧
      ∀ i < tct.root.sz, ∀ j < sct.root.sz, close (M i j) (ug (tperm.getD i 0) (sperm.getD j 0))) ∧
      ∃ N : ℕ → ℕ → ℕ → R, (∀ r < P, ∀ i < (fromHMatrix P tct sct tperm sperm sym u K).tgt.size r, ∀ j,
          M ((fromHMatrix P tct sct tperm sperm sym u K).tgt.off r + i) j = N r i j) ∧
        ∀ r < P, (LocalOp.mk tperm ((fromHMatrix P tct sct tperm sperm sym u K).tgt.off r) ((fromHMatrix P tct sct tperm sperm sym u K).tgt.size r)
            sperm sct.root.off sct.root.sz sym.toH false false (K r)).KernelOK (N r) ∧
          ∀ α x β y mu, 0 < mu → IsRM .N ((fromHMatrix P tct sct tperm sperm sym u K).tgt.size r) sct.root.sz (N r) α x β y mu
            ((K r).rm .N α x β y mu) := by
  classical
  set D := fromHMatrix P tct sct tperm sperm sym u K with hD
  have hok : D.OK := h.ok u
  have hex : ∀ r, ∃ N : ℕ → ℕ → R, r < P →
      (LocalOp.mk tperm (D.tgt.off r) (D.tgt.size r) sperm sct.root.off sct.root.sz sym.toH false false (K r)).KernelOK N ∧
      (∀ α x β y mu, 0 < mu → IsRM .N (D.tgt.size r) sct.root.sz N α x β y mu ((K r).rm .N α x β y mu)) ∧
      ∀ i < D.tgt.size r, ∀ j < sct.root.sz, close (N i j) (ug (tperm.getD (D.tgt.off r + i) 0) (sperm.getD j 0)) := by
    intro r
    by_cases hr : r < P
    · obtain ⟨Pr, hP, hcov⟩ := h.covered hr
      obtain ⟨T, lr, dg, fuel, m, m', B', H, hT, hlr, hdg, hb, hk⟩ := h.build r hr
      obtain ⟨hfit, h1, h2, h3⟩ := C19_built_operator hT hcov (h.userGen hr hP hdg) h.close_ok hlr hb
      have hiv : (tct.parts.map iv).getD r (0, 0) = Pr.iv := by
        rw [List.getD_eq_getElem?_getD, List.getElem?_map, hP]; rfl
      have o1 : D.tgt.off r = Pr.off := by
        show ((tct.parts.map iv).getD r (0, 0)).1 = _; rw [hiv]; rfl
      have o2 : D.tgt.size r = Pr.sz := by
        show ((tct.parts.map iv).getD r (0, 0)).2 = _; rw [hiv]; rfl
      have r1 : (H.map m'.heap).label.toff = Pr.off := congrArg Prod.fst h1
      have r2 : (H.map m'.heap).label.tsz = Pr.sz := congrArg Prod.snd h1
      have s1 : (H.map m'.heap).label.soff = sct.root.off := congrArg Prod.fst h2
      have s2 : (H.map m'.heap).label.ssz = sct.root.sz := congrArg Prod.snd h2
      rw [(h.env r hr).2.2.1] at hfit
      refine ⟨HTree.mat (H.map m'.heap), fun _ => ⟨LocalOp.kernelOK_hmatrix h.real hk hfit (by rw [r2, ← o2]) s2, ?_, ?_⟩⟩
      · rintro α x β y mu hmu c hc i
        obtain ⟨T', hT', hrm⟩ := hk.rm .N α x β y mu
        have hsup : Supported R sym.toH .N := by cases sym <;> simp [Supported, SymType.toH]
        rw [C20_parallel_row_major_product_is_sequential hT' h.real hfit hsup hmu hrm, C22_row_major_product h.real hfit hsup _ _ _ _ hc, r2, s2, o2]
      intro i hi j hj
      unfold HTree.mat
      rw [r1, s1, h.sroot, Nat.zero_add, o1]
      exact h3 (Pr.off + i) j (by unfold InIv Tree.iv; simp only; omega) (by unfold InIv Tree.iv; rw [h.sroot]; simp only; omega)
    · exact ⟨fun _ _ => 0, fun h => absurd h hr⟩
  choose N hN using hex
  set L : ℕ → List (LocalOp R × (ℕ → ℕ → R)) := fun r =>
    [(LocalOp.mk tperm (D.tgt.off r) (D.tgt.size r) sperm sct.root.off sct.root.sz sym.toH false false (K r), N r)] with hL
  have hrank : ∀ r < P, D.RankOps r (L r) := by
    intro r hr
    refine ⟨rfl, ?_, ?_, ?_, ?_, ?_⟩ <;> intro p hp <;> simp only [hL, List.mem_singleton] at hp <;> subst hp
    · exact ⟨N r, (hN r hr).1, fun i _ j _ => rfl⟩
    · exact ⟨fun h => by simp at h, fun h => by simp at h⟩
    · show sym.toH ≠ .nul; cases sym <;> simp [SymType.toH]
    · rfl
    · show sct.root.off + sct.root.sz ≤ sct.root.sz
      rw [h.sroot]; omega
  set M : ℕ → ℕ → R := fun k j => if hk : ∃ r < P, ∃ i < D.tgt.size r, k = D.tgt.off r + i then
    N hk.choose (k - D.tgt.off hk.choose) j else 0 with hM
  have hMval : ∀ r < P, ∀ i < D.tgt.size r, ∀ j, M (D.tgt.off r + i) j = N r i j := by
    intro r hr i hi j
    have hk : ∃ r' < P, ∃ i' < D.tgt.size r', D.tgt.off r + i = D.tgt.off r' + i' := ⟨r, hr, i, hi, rfl⟩
    rw [hM]
    simp only
    rw [dif_pos hk]
    obtain ⟨q1, i', q2, q3⟩ := hk.choose_spec
    have : hk.choose = r := (hok.tgt.unique hr q1 hi q2 q3).symm
    rw [this, Nat.add_sub_cancel_left]
  have hsum : D.IsSum L M := by
    intro r hr i hi j hj
    rw [hMval r hr i hi]
    simp only [sumBlocks, hL, List.map_cons, List.map_nil, List.sum_cons, List.sum_nil, add_zero, blockOf]
    have hj' : j < sct.root.sz := hj
    rw [if_pos (by rw [h.sroot]; omega), h.sroot, Nat.sub_zero]
  refine ⟨M, ⟨C42_vector_product_sums hrank hsum, C42_matrix_product_sums hrank ?_ hsum, fun hs => ⟨?_, ?_⟩, ?_⟩, N, hMval, fun r hr => ⟨(hN r hr).1, (hN r hr).2.1⟩⟩
  · intro r _ p hp; simp only [hL, List.mem_singleton] at hp; subst hp; rfl
  · refine C42_transposed_vector_product_sums hrank ?_ ?_ hsum
    · intro r _ p hp; simp only [hL, List.mem_singleton] at hp; subst hp; rfl
    · intro r _ p hp; simp only [hL, List.mem_singleton] at hp; subst hp; subst hs; simp [Supported, SymType.toH]
  · refine C42_transposed_matrix_product_sums_partial hrank ?_ ?_ ?_ hsum
    · intro r _ p hp; simp only [hL, List.mem_singleton] at hp; subst hp; rfl
    · intro r _ p hp; simp only [hL, List.mem_singleton] at hp; subst hp; subst hs; simp [Supported, SymType.toH]
    · intro r _; simp [hL]
  · intro i hi j hj
    obtain ⟨r, hr, i', hi', rfl⟩ := hok.tgt.cover (k := i) hi
    rw [hMval r hr i' hi' j]
    exact (hN r hr).2.2 i' hi' j hj

/-- The distributed operator multiplies like one matrix, entrywise `close` to the user's coefficients. -/
theorem DistBuild.acts (h : DistBuild P tct sct tperm sperm E sym cplx ug close K) (u : Bool) :
    ∃ M : ℕ → ℕ → R, (fromHMatrix P tct sct tperm sperm sym u K).ActsVec M ∧ (fromHMatrix P tct sct tperm sperm sym u K).ActsMat M ∧
      (sym = .N → (fromHMatrix P tct sct tperm sperm sym u K).ActsVecT M ∧ (fromHMatrix P tct sct tperm sperm sym u K).ActsMatT M) ∧
      ∀ i < tct.root.sz, ∀ j < sct.root.sz, close (M i j) (ug (tperm.getD i 0) (sperm.getD j 0)) := by
  obtain ⟨M, hM, -⟩ := h.acts_local u
  exact ⟨M, hM⟩

omit [DecidableEq R] in
theorem DOp.exists_inUser {D : DOp R} (h : D.OK) (M : ℕ → ℕ → R) : ∃ U, D.InUser M U := by
  classical
  have key : ∀ (p : Part), p.OK D.P → ∃ inv : ℕ → ℕ, ∀ i < p.n, inv (if D.usePerm then p.perm.getD i 0 else i) = i := by
    intro p hp
    cases hu : D.usePerm with
    | false => exact ⟨id, fun i _ => rfl⟩
    | true =>
      refine ⟨fun k => if hk : ∃ i < p.n, p.perm.getD i 0 = k then hk.choose else 0, fun i hi => ?_⟩
      have hk : ∃ i' < p.n, p.perm.getD i' 0 = p.perm.getD i 0 := ⟨i, hi, rfl⟩
      simp only [if_true]
      rw [dif_pos hk]
      obtain ⟨q1, q2⟩ := hk.choose_spec
      refine userIdx_inj hp.perm q1 hi ?_
      rw [userIdx_zero, userIdx_zero]; exact q2
  obtain ⟨f, hf⟩ := key _ h.tgt
  obtain ⟨g, hg⟩ := key _ h.src
  refine ⟨fun k l => M (f k) (g l), fun i hi j hj => ?_⟩
  unfold DOp.tnum DOp.snum
  beta_reduce
  rw [hf i hi, hg j hj]

/-- **C39, C40, C41 (from generator to distributed products).** Given two cluster trees with one part for each of the `P` ranks, let every rank
build its rows from the user's coefficients `ug` under its own schedule. Then there is a matrix `U`, entrywise `close` to `ug`, such that:
every rank gets the products `U x` and `U X` in user numbering; without symmetry it gets the products `Uᵀ x` and `Uᵀ X`; and if the
numberings are local to the parts the local-to-local products give each rank its part of these. Nothing else is written. -/
theorem C39_built_products (h : DistBuild P tct sct tperm sperm E sym cplx ug close K) :
    ∃ U : ℕ → ℕ → R, (∀ k < tct.root.sz, ∀ l < sct.root.sz, close (U k l) (ug k l)) ∧
      (∀ (x : ℕ → R) (inp out : ℕ → Buf R), (∀ r < P, ∀ l < sct.root.sz, inp r l = x l) → ∀ r k,
        (fromHMatrix P tct sct tperm sperm sym true K).vecG2G inp out r k =
          if k < tct.root.sz then ∑ l ∈ range sct.root.sz, U k l * x l else out r k) ∧
      (∀ (mu : ℕ) (x : ℕ → R) (inp out : ℕ → Buf R), (∀ r < P, ∀ p < mu * sct.root.sz, inp r p = x p) → ∀ r, ∀ c < mu, ∀ k < tct.root.sz,
        (fromHMatrix P tct sct tperm sperm sym true K).matG2G inp out mu r (c * tct.root.sz + k) =
          ∑ l ∈ range sct.root.sz, U k l * x (c * sct.root.sz + l)) ∧
      (sym = .N → ∀ (x : ℕ → R) (inp out : ℕ → Buf R), (∀ r < P, ∀ l < tct.root.sz, inp r l = x l) → ∀ r < P, ∀ k,
        (fromHMatrix P tct sct tperm sperm sym true K).vecTG2G inp out r k =
          if k < sct.root.sz then ∑ l ∈ range tct.root.sz, U l k * x l else out r k) ∧
      (sym = .N → ∀ (mu : ℕ) (x : ℕ → R) (inp out : ℕ → Buf R), (∀ r < P, ∀ p < mu * tct.root.sz, inp r p = x p) → ∀ r, ∀ c < mu,
        ∀ k < sct.root.sz, (fromHMatrix P tct sct tperm sperm sym true K).matTG2G inp out mu r (c * sct.root.sz + k) =
          ∑ l ∈ range tct.root.sz, U l k * x (c * tct.root.sz + l)) ∧
      ((∀ p ∈ tct.parts, LocalPerm tperm p.off p.sz) → (∀ p ∈ sct.parts, LocalPerm sperm p.off p.sz) →
        ∀ (x : ℕ → R) (inp out work : ℕ → Buf R), (∀ (r : ℕ) (p : CTree G), sct.parts[r]? = some p → ∀ l < p.sz, inp r l = x (p.off + l)) →
        ∀ (r : ℕ) (p : CTree G), tct.parts[r]? = some p → ∀ k,
          (fromHMatrix P tct sct tperm sperm sym true K).vecL2L inp out work r k =
            if k < p.sz then ∑ l ∈ range sct.root.sz, U (p.off + k) l * x l else out r k) := by
  obtain ⟨M, a1, a2, a3, a4⟩ := h.acts true
  have hok := h.ok true
  set D := fromHMatrix P tct sct tperm sperm sym true K with hD
  obtain ⟨U, hU⟩ := DOp.exists_inUser hok M
  have hsym : sym = .N → D.sym = .N := fun hs => by show sym.toH = .N; rw [hs]; rfl
  have hSOK : sym = .N → D.SymOK U := fun hs =>
    ⟨fun h => by rw [hsym hs] at h; simp at h, fun h => by rw [hsym hs] at h; simp at h⟩
  have hiv : ∀ (ct : ClusterTree G) (r : ℕ) (p : CTree G), ct.parts[r]? = some p → (ct.parts.map iv).getD r (0, 0) = p.iv := by
    intro ct r p hp
    rw [List.getD_eq_getElem?_getD, List.getElem?_map, hp]; rfl
  refine ⟨U, ?_, ?_, ?_, ?_, ?_, ?_⟩
  · intro k hk l hl
    obtain ⟨i, hi, rfl⟩ := hok.tgt.surj (k := k) hk
    obtain ⟨j, hj, rfl⟩ := hok.src.surj (k := l) hl
    have e := hU i hi j hj
    unfold DOp.tnum DOp.snum at e
    have hu : D.usePerm = true := rfl
    simp only [hu, if_true] at e
    rw [e]
    exact a4 i hi j hj
  · exact fun x inp out hx r k => C39_vector_product_global_to_global hok a1 hU hx out r k
  · exact fun mu x inp out hx r => (C39_matrix_product_global_to_global hok a2 hU hx out r).1
  · intro hs x inp out hx r hr k
    refine C40_transposed_vector_product_global_to_global hok (M := M) ?_ hU (hSOK hs) hx out hr k
    unfold DOp.ActsForVecT
    rw [if_neg (by rw [hsym hs]; simp)]
    exact (a3 hs).1
  · intro hs mu x inp out hx r
    refine (C40_transposed_matrix_product_global_to_global hok (M := M) ?_ hU (hSOK hs) hx out r).1
    unfold DOp.ActsForMatT
    rw [if_neg (by rw [hsym hs]; simp)]
    exact (a3 hs).2
  · intro lt ls x inp out work hx r p hp k
    have hr : r < P := by
      have := List.getElem?_eq_some_iff.1 hp
      obtain ⟨h1, -⟩ := this
      rw [← h.tparts]; exact h1
    have loc : ∀ (ct : ClusterTree G) (perm : List ℕ) (n : ℕ), ct.parts.length = P → (∀ p ∈ ct.parts, LocalPerm perm p.off p.sz) →
        Part.Local ⟨perm, n, ct.parts.map iv⟩ P := by
      intro ct perm n hlen hl q hq
      have hq' : ct.parts[q]? = some (ct.parts[q]'(by omega)) := List.getElem?_eq_getElem _
      unfold Part.off Part.size
      simp only
      rw [hiv ct q _ hq']
      exact hl _ (List.getElem_mem _)
    have := C41_vector_product_local_to_local hok ⟨fun _ => loc tct tperm _ h.tparts lt, fun _ => loc sct sperm _ h.sparts ls⟩ a1 hU (x := x)
      (inp := inp) (by
        intro q hq l hl
        have hq' : sct.parts[q]? = some (sct.parts[q]'(by rw [h.sparts]; exact hq)) := List.getElem?_eq_getElem _
        have e : (sct.parts.map iv).getD q (0, 0) = _ := hiv sct q _ hq'
        have o1 : D.src.off q = (sct.parts[q]'(by rw [h.sparts]; exact hq)).off := by
          show ((sct.parts.map iv).getD q (0, 0)).1 = _; rw [e]; rfl
        have o2 : D.src.size q = (sct.parts[q]'(by rw [h.sparts]; exact hq)).sz := by
          show ((sct.parts.map iv).getD q (0, 0)).2 = _; rw [e]; rfl
        rw [o1]
        exact hx q _ hq' l (by rw [← o2]; exact hl)) out work hr k
    have o1 : D.tgt.off r = p.off := by
      show ((tct.parts.map iv).getD r (0, 0)).1 = _; rw [hiv tct r p hp]; rfl
    have o2 : D.tgt.size r = p.sz := by
      show ((tct.parts.map iv).getD r (0, 0)).2 = _; rw [hiv tct r p hp]; rfl
    rw [o1, o2] at this
    exact this

/-! ## Executions exist -/

omit [StarRing R] [DecidableEq R] in
/-- Every state of the parallel region leads to its end. -/
theorem omp_completes {T : ℕ} {ι : Type*} {fL fM : ι → Buf R → Buf R} {n : ℕ} {α : R} {s0 s : OmpState T ι R} (hr : OmpRun fL fM n α s0 s)
    (hpc : ∀ th, s.pc th ≤ 2) : ∃ t, OmpRun fL fM n α s0 t ∧ ∀ th, t.pc th = 2 := by
  induction hn : s.work using Nat.strong_induction_on generalizing s with
  | _ k ih =>
    by_cases hall : ∀ th, s.pc th = 2
    · exact ⟨s, hr, hall⟩
    · push Not at hall
      obtain ⟨th, hth⟩ := hall
      have hle := hpc th
      have up : ∀ k ≤ 2, ∀ u, Function.update s.pc th k u ≤ 2 := by
        intro k hk u
        by_cases hu : u = th
        · subst hu; simp; exact hk
        · rw [Function.update_of_ne hu]; exact hpc u
      have key : ∃ t, OmpStep fL fM n α s t ∧ ∀ th, t.pc th ≤ 2 := by
        rcases Nat.lt_or_ge (s.pc th) 1 with h0 | h0
        · have h0 : s.pc th = 0 := by omega
          cases hd : s.todo with
          | nil => exact ⟨_, .next s th h0 hd, up 1 (by omega)⟩
          | cons l L => exact ⟨_, .leaf s th l [] L h0 hd, hpc⟩
        · have h1 : s.pc th = 1 := by omega
          cases hd : s.todoSym with
          | nil => exact ⟨_, .commit s th h1 hd, up 2 (by omega)⟩
          | cons l L => exact ⟨_, .mirror s th l [] L h1 hd, hpc⟩
      obtain ⟨t, ht, hp⟩ := key
      exact ih t.work (hn ▸ ompStep_work ht) (hr.tail ht) hp rfl

/-- Every H-matrix has product kernels. -/
theorem exists_hmatrixKernel (cplx : Bool) (A : HTree R) : ∃ K : LocalKernel R, HMatrixKernel K cplx A := by
  have v : ∀ tr α x β y, ∃ z, OmpVec 1 cplx tr α A x β y z := by
    intro tr α x β y
    obtain ⟨t, h1, h2⟩ := omp_completes (OmpRun.refl (fL := fun l => leafStep cplx tr A.label x 1 l.label)
      (fM := fun l => mirrorStep cplx tr A.label x 1 l.label) (n := A.label.outSize tr) (α := α)
      (ompInit 1 A (betaScale β (A.label.outSize tr) y))) (fun _ => by simp [ompInit])
    exact ⟨_, t, h1, h2, rfl⟩
  have w : ∀ tr α x β y mu, ∃ z, OmpRM 1 cplx tr α A x β y mu z := by
    intro tr α x β y mu
    obtain ⟨t, h1, h2⟩ := omp_completes (OmpRun.refl (fL := fun l => leafStepRM cplx tr A.label mu x 1 l.label)
      (fM := fun l => mirrorStepRM cplx tr A.label mu x 1 l.label) (n := A.label.outSize tr * mu) (α := α)
      (ompInit 1 A (betaScale β (A.label.outSize tr * mu) y))) (fun _ => by simp [ompInit])
    exact ⟨_, t, h1, h2, rfl⟩
  choose f hf using v
  choose g hg using w
  exact ⟨⟨f, f, g, g⟩, fun _ _ _ _ _ => ⟨1, by omega, hf _ _ _ _ _⟩, fun _ _ _ _ _ => ⟨1, by omega, hf _ _ _ _ _⟩,
    fun _ _ _ _ _ _ => ⟨1, by omega, hg _ _ _ _ _ _⟩, fun _ _ _ _ _ _ => ⟨1, by omega, hg _ _ _ _ _ _⟩⟩

/-- A compressor with exact factors. -/
def exactLR {R : Type*} [CommRing R] : LRGen R := fun gen a b => ⟨b.2, a.2, b.2, fun i k => gen (a.1 + i) (b.1 + k), fun k j => if k = j then 1 else 0⟩

omit [StarRing R] [DecidableEq R] in
theorem exactLR_ok {close : R → R → Prop} (hc : ∀ x, close x x) (gen : ℕ → ℕ → R) : UserLR close exactLR gen := by
  intro a b _ _ i _ j hj
  simp only [exactLR, mul_ite, mul_one, mul_zero]
  rw [Finset.sum_ite_eq' (range b.2) j, if_pos (Finset.mem_range.2 hj)]
  exact hc _

/-- The hypotheses on operators built from a generator are met: 12 points, a non-trivial numbering, two ranks, symmetric coefficients. -/
theorem exDistOf (hreal : RealType R) {close : R → R → Prop} (hc : Closeness close) (ug : ℕ → ℕ → R) (hsym : ∀ k l, ug l k = ug k l) :
    ∃ (tct : ClusterTree (List ℕ)) (perm : List ℕ) (E : ℕ → BEnv (List ℕ)) (K : ℕ → LocalKernel R),
    DistBuild 2 tct tct perm perm E .S false ug close K ∧ perm = [8, 7, 6, 11, 10, 9, 2, 1, 0, 5, 4, 3] := by
  obtain ⟨t, st, hb, hB⟩ := exBuild_built
  have hperm : ∀ r ∈ exBuild, r.2.perm = [8, 7, 6, 11, 10, 9, 2, 1, 0, 5, 4, 3] := by decide +kernel
  have hlen : ∀ r ∈ exBuild, (clusterTreeOf r.1 r.2).parts.length = 2 := by decide +kernel
  have hbb : ∀ r ∈ exBuild, ∀ p < 2, (buildBlocks (exEnv r.1 r.2 (some p) (some p) .S .L) 100 r.1 r.1).isSome = true := by decide +kernel
  obtain ⟨a1, a2, a3⟩ := localPerm_root hB.strategies hB.hflog hB.hnc hB.harg hB.build
  have h0 : (clusterTreeOf t st).root = t := rfl
  have hex : ∀ p, ∃ (m' : Mem R) (B' : Builder) (H : Tree ℕ), p < 2 → BuildStep 3 (exEnv t st (some p) (some p) .S .L) exactLR none 100
      t t (permutedGen st.perm st.perm ug) ⟨fun _ => ⟨0, 0, 0, 0, .N, .N, .N, .N, .hier⟩, fun _ => false, 0, false⟩ Builder.empty m' B' H := by
    intro p
    by_cases hp : p < 2
    · obtain ⟨b, hb'⟩ := Option.isSome_iff_exists.1 (hbb (t, st) hb p hp)
      have hl : p < (clusterTreeOf t st).parts.length := by rw [hlen (t, st) hb]; exact hp
      have hok : BuildOK (exEnv t st (some p) (some p) .S .L) t t := by
        refine ⟨hB.wf.1, hB.wf.1, Tree.mem_pre_self _, Tree.mem_pre_self _, ?_⟩
        intro q hq
        have hq : some p = some q := hq
        injection hq with hq
        subst hq
        refine ⟨_, List.getElem?_eq_getElem hl, ?_⟩
        have : ∀ r ∈ exBuild, r.1.rk < 0 := by decide +kernel
        exact Or.inl (this (t, st) hb)
      obtain ⟨m', B', H, h⟩ := build_exists (T := 3) (lr := exactLR) (dg := none)
        (gen := permutedGen st.perm st.perm ug) hok (sysInv_empty _) hb'
      exact ⟨m', B', H, fun _ => h⟩
    · exact ⟨⟨fun _ => ⟨0, 0, 0, 0, .N, .N, .N, .N, .hier⟩, fun _ => false, 0, false⟩, Builder.empty, .node 0 [], fun h => absurd h hp⟩
  choose m' B' H hH using hex
  choose K hK using fun p => exists_hmatrixKernel false ((H p).map (m' p).heap)
  refine ⟨clusterTreeOf t st, st.perm, fun p => exEnv t st (some p) (some p) .S .L, K, ?_, hperm (t, st) hb⟩
  refine ⟨fun _ => hreal, hc, hB.wf, hB.wf, a1, a1, ?_, ?_, hlen (t, st) hb, hlen (t, st) hb, ?_, ?_, ?_, ?_, ?_⟩
  · rw [a1] at a3; exact a3
  · rw [a1] at a3; exact a3
  · exact fun r _ => ⟨rfl, rfl, rfl, rfl, rfl⟩
  · exact fun _ => ⟨rfl, rfl, fun r _ => ⟨by simp [exEnv], rfl⟩⟩
  · exact fun _ k _ l _ => hsym k l
  · intro h; simp at h
  · intro r hr
    exact ⟨3, exactLR, none, 100, _, m' r, B' r, H r, by omega, exactLR_ok hc.refl _, by simp, hH r hr, hK r⟩

theorem exDist : ∃ (tct : ClusterTree (List ℕ)) (perm : List ℕ) (E : ℕ → BEnv (List ℕ)) (K : ℕ → LocalKernel ℤ),
    DistBuild 2 tct tct perm perm E .S false (fun k l => (k : ℤ) * l + k + l) Eq K ∧ perm = [8, 7, 6, 11, 10, 9, 2, 1, 0, 5, 4, 3] :=
  exDistOf (fun x => by simp) ⟨fun _ => rfl, fun x y h => by rw [h]⟩ _ (fun k l => by ring)

end Htool
