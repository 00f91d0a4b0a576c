import Verif.HLinBuild

/-! # C57: products of hierarchical matrices

Specification: `Rep m ad M A` (`Verif/HLinProd.lean`) says that the H-matrix `A` contains the matrix `M` (cluster numbering) on the entries which are
stored (`m`), and `op` of a matrix is `opE`. -/

namespace Htool
variable {G R : Type*}
open Finset

/-! ## The hypotheses can be met -/

section exist
variable [CommRing R]

/-- A dense matrix with given entries. -/
def matFun (m n : ℕ) (f : ℕ → ℕ → R) : Mat R := ⟨m, n, fun p => f (p % m) (p / m)⟩

theorem matFun_get (m n : ℕ) (f : ℕ → ℕ → R) {i j : ℕ} (hi : i < m) : (matFun m n f).get i j = f i j := by
  unfold matFun Mat.get
  show f ((i + j * m) % m) ((i + j * m) / m) = _
  rw [Nat.add_mul_mod_self_right, Nat.mod_eq_of_lt hi, Nat.add_mul_div_right _ _ (by omega), Nat.div_eq_of_lt hi, Nat.zero_add]

/-- `D` times the identity. -/
def fullLR (D : Mat R) : LR R := ⟨matFun D.nr D.nc D.get, matFun D.nc D.nc (fun i j => if i = j then 1 else 0)⟩

theorem fullLR_is (D : Mat R) : (fullLR D).IsMat D.nr D.nc D.get := by
  refine ⟨rfl, rfl, rfl, fun i hi j hj => ?_⟩
  have e : ∀ l ∈ range (fullLR D).rank, (fullLR D).U.get i l * (fullLR D).V.get l j = if l = j then D.get i l else 0 := by
    intro l hl
    have hl : l < D.nc := mem_range.1 hl
    unfold fullLR
    rw [matFun_get _ _ _ hi, matFun_get _ _ _ hl]
    by_cases e : l = j
    · rw [if_pos e, if_pos e, mul_one]
    · rw [if_neg e, if_neg e, mul_zero]
  unfold LR.entry
  rw [sum_congr rfl e, sum_ite_eq' (range (fullLR D).rank) j, if_pos (show j ∈ range (fullLR D).rank from mem_range.2 hj)]

variable [StarRing R]

/-- Exact compression and recompression exist. -/
theorem exact_ops_exist (cplx : Bool) (h : cplx = false → RealType R) : ∃ E : LinOps R, E.cplx = cplx ∧ E.Exact :=
  ⟨⟨cplx, id, fun D _ => fullLR D, fun D => (D, []), fun _ D => D, fun _ _ _ _ _ _ B => B⟩, rfl, h, fun _ _ _ _ h => h, fun D _ => fullLR_is D⟩

omit [StarRing R] in
/-- Every block tree built by the library without symmetry can contain every matrix, with low-rank data in the admissible leaves. -/
theorem rep_exists {E : BEnv G} (h : E.Good) (hs : E.sym = .N) {fuel : ℕ} {b : BTree G}
    (hb : buildBlockTree E fuel E.tct.root E.sct.root = some b) (M : ℕ → ℕ → R) :
    ∃ F : FTree G R, Rep .full (fun _ _ => True) M F ∧ F.label.t = E.tct ∧ F.label.s = E.sct ∧ Tree.ht F = b.ht ∧
      F = b.map (fun n => ⟨⟨n.t, E.tct.parts⟩, ⟨n.s, E.sct.parts⟩, .N, .N, .N, .N, match n.kind with
        | .dense => .dense (matFun n.t.sz n.s.sz (fun i j => M (n.t.off + i) (n.s.off + j))) []
        | .adm => .lowRank (fullLR (matFun n.t.sz n.s.sz (fun i j => M (n.t.off + i) (n.s.off + j))))
        | .hier => .hier⟩) := by
  set g : BNode G → FNode G R := fun n => ⟨⟨n.t, E.tct.parts⟩, ⟨n.s, E.sct.parts⟩, .N, .N, .N, .N, match n.kind with
        | .dense => .dense (matFun n.t.sz n.s.sz (fun i j => M (n.t.off + i) (n.s.off + j))) []
        | .adm => .lowRank (fullLR (matFun n.t.sz n.s.sz (fun i j => M (n.t.off + i) (n.s.off + j))))
        | .hier => .hier⟩ with hg
  have hm : E.mask = .full := by unfold BEnv.mask; rw [if_pos hs]
  have get : ∀ (n : BNode G) (i j : ℕ), (g n).Has i j → (matFun n.t.sz n.s.sz (fun i j => M (n.t.off + i) (n.s.off + j))).get (i - n.t.off) (j - n.s.off) =
      M i j := by
    intro n i j hi
    have hi' : (n.t.off ≤ i ∧ i < n.t.off + n.t.sz) ∧ n.s.off ≤ j ∧ j < n.s.off + n.s.sz := hi
    rw [matFun_get _ _ _ (by omega)]
    congr 1 <;> omega
  have fl : ∀ n : BNode G, Fills E (RepP .full (fun _ _ => True) M) n (g n) := by
    intro n
    refine ⟨rfl, rfl, ?_, Or.inl ⟨rfl, rfl⟩, ?_⟩
    · cases hk : n.kind <;> simp [hg, hk]
    · cases hk : n.kind with
      | hier => simp [hg, hk]
      | dense =>
        simp only [hg, hk]
        exact ⟨rfl, rfl, fun i j hi _ => get n i j hi⟩
      | adm =>
        simp only [hg, hk]
        have L := fullLR_is (matFun n.t.sz n.s.sz (fun i j => M (n.t.off + i) (n.s.off + j)))
        refine ⟨trivial, L.1, L.2.1, L.2.2.1, fun i j hi _ => ?_⟩
        have hi' : (n.t.off ≤ i ∧ i < n.t.off + n.t.sz) ∧ n.s.off ≤ j ∧ j < n.s.off + n.s.sz := hi
        refine (L.2.2.2 _ (show i - n.t.off < n.t.sz by omega) _ (show j - n.s.off < n.s.sz by omega)).trans (get n i j hi)
  have hrel : Tree.Rel (Fills E (RepP .full (fun _ _ => True) M)) b (b.map g) :=
    Tree.Rel.mono (fun a c hc => by rw [hc]; exact fl a) (Tree.Rel_map g b)
  obtain ⟨s1, s2, s3⟩ := shape_of_build h fuel (Tree.mem_pre_self _) (Tree.mem_pre_self _) hb hrel
  rw [hm] at s1
  exact ⟨b.map g, s1, s2, s3, ht_map g b, rfl⟩

end exist

theorem flat_of_top {c : ClusterTree G} (h : c.Top) (hc : ∀ u ∈ c.root.children, 0 ≤ u.rk) : c.Flat := by
  by_cases hr : 0 ≤ c.rk
  · exact Or.inl hr
  · right
    have h := h.resolve_left hr
    refine ⟨?_, hc⟩
    rw [h, Tree.front_neg (by unfold ClusterTree.rk at hr; omega)]
    have : ∀ l : List (CTree G), (∀ u ∈ l, 0 ≤ u.rk) → l.flatMap Tree.front = l := by
      intro l
      induction l with
      | nil => intro _; rfl
      | cons u l ih =>
        intro hu
        rw [List.flatMap_cons, Tree.front_rank (hu u (by simp)), ih fun v hv => hu v (by simp [hv])]; rfl
    exact this _ hc

section claims
variable [CommRing R] [StarRing R] [DecidableEq R] {E : LinOps R} {adA adB ad : ClusterTree G → ClusterTree G → Prop} {MA MB MC : ℕ → ℕ → R}
  {A B C : FTree G R}

/-- **C57.** With exact compressions, `C := alpha op(A) op(B) + beta C` for H-matrices `A`, `B`, `C` with any block structure (on one block any of the
three may be dense, low-rank or divided), any transposition, `C` being stored entirely or by one half. The clusters of the three matrices agree and the
partition of the processors is at most one level below the root. Missing from the full claim: when `C` is divided and `A` or `B` is not, `beta` has to
be 1 (see `C57_beta_ignored`); a deeper partition (see `C57_deep_partition`). -/
theorem C57_hmatrix_product_partial {m : Mask} (hE : E.Exact) (ta tb : Trans) (α β : R) (hA : Rep .full adA MA A) (hB : Rep .full adB MB B)
    (hC : Rep m ad MC C) (fA : A.label.t.Flat ∧ A.label.s.Flat) (fB : B.label.t.Flat ∧ B.label.s.Flat)
    (hin : A.inC ta = B.outC tb) (hrow : C.label.t = A.outC ta) (hcol : C.label.s = B.inC tb) (hk : m.keep C.label.t C.label.s = true)
    (hβ : β = 1 ∨ C.isHier = false ∨ (A.isHier = true ∧ B.isHier = true)) {n : ℕ} (hn : A.ht + B.ht ≤ n) :
    ∃ C', hhH E n ta tb α A B β C = some C' ∧ C'.label.t = C.label.t ∧ C'.label.s = C.label.s ∧
      Rep m ad (fun i j => α * ∑ l ∈ Ico (A.inC ta).off (A.inC ta).fin, opE ta MA i l * opE tb MB l j + β * MC i j) C' := by
  obtain ⟨C', h1, h2, h3, h4, -⟩ := hhH_spec hE ta tb α n A B C MC β hn hA hB hC fA.1 fA.2 fB.1 fB.2 hin hrow hcol hk hβ
  exact ⟨C', h1, h3, h4, h2⟩

/-- **C57**, seen by the products and the conversion to a dense matrix: the entries of the result. -/
theorem C57_hmatrix_product_entries_partial (hE : E.Exact) (ta tb : Trans) (α β : R) (hA : Rep .full adA MA A) (hB : Rep .full adB MB B)
    (hC : Rep .full ad MC C) (fA : A.label.t.Flat ∧ A.label.s.Flat) (fB : B.label.t.Flat ∧ B.label.s.Flat)
    (hin : A.inC ta = B.outC tb) (hrow : C.label.t = A.outC ta) (hcol : C.label.s = B.inC tb)
    (hβ : β = 1 ∨ C.isHier = false ∨ (A.isHier = true ∧ B.isHier = true)) {n : ℕ} (hn : A.ht + B.ht ≤ n) :
    ∃ C', hhH E n ta tb α A B β C = some C' ∧ ∀ i < C.label.t.sz, ∀ j < C.label.s.sz,
      C'.toH.mat i j = α * ∑ l ∈ range (A.inC ta).sz, opE ta A.toH.mat i l * opE tb B.toH.mat l j + β * C.toH.mat i j := by
  obtain ⟨C', h1, h2, h3, h4⟩ := C57_hmatrix_product_partial hE ta tb α β hA hB hC fA fB hin hrow hcol rfl hβ hn
  refine ⟨C', h1, fun i hi j hj => ?_⟩
  rw [h4.mat_eq (by rw [h2]; exact hi) (by rw [h3]; exact hj), hC.mat_eq hi hj]
  unfold rel
  beta_reduce
  rw [h2, h3]
  congr 2
  rw [Finset.sum_Ico_eq_sum_range]
  have : (A.inC ta).fin - (A.inC ta).off = (A.inC ta).sz := by unfold ClusterTree.fin; omega
  rw [this]
  refine sum_congr rfl fun l hl => ?_
  have hl := mem_range.1 hl
  have hi' : i < (A.outC ta).sz := by rw [← hrow]; exact hi
  have hj' : j < (B.inC tb).sz := by rw [← hcol]; exact hj
  have hl' : l < (B.outC tb).sz := by rw [← hin]; exact hl
  have ea : opE ta A.toH.mat i l = opE ta MA ((A.outC ta).off + i) ((A.inC ta).off + l) := by
    rw [← opE_rel]
    cases ta with
    | N => exact hA.mat_eq hi' hl
    | T => exact hA.mat_eq hl hi'
    | C => exact congrArg star (hA.mat_eq hl hi')
  have eb : opE tb B.toH.mat l j = opE tb MB ((B.outC tb).off + l) ((B.inC tb).off + j) := by
    rw [← opE_rel]
    cases tb with
    | N => exact hB.mat_eq hl' hj'
    | T => exact hB.mat_eq hj' hl'
    | C => exact congrArg star (hB.mat_eq hj' hl')
  rw [ea, eb, hrow, hcol, hin]

/-- **C57 fails**: with a divided `C` and an operand which is one dense or low-rank block, `beta` is ignored (add_hmatrix_hmatrix_product.hpp 269-301): the
result is `alpha op(A) op(B) + C`, whatever `beta`. -/
theorem C57_beta_ignored {m : Mask} (hE : E.Exact) (ta tb : Trans) (α β : R) (hA : Rep .full adA MA A) (hB : Rep .full adB MB B)
    (hC : Rep m ad MC C) (hin : A.inC ta = B.outC tb) (hrow : C.label.t = A.outC ta) (hcol : C.label.s = B.inC tb)
    (hh : C.isHier = true) (hl : (A.isHier && B.isHier) = false) (n : ℕ) :
    ∃ C', hhH E (n + 1) ta tb α A B β C = some C' ∧
      Rep m ad (fun i j => α * ∑ l ∈ Ico (A.inC ta).off (A.inC ta).fin, opE ta MA i l * opE tb MB l j + MC i j) C' := by
  have g := hhTemp_on hE hA hB hl ta tb α β hin
  rw [← hrow, ← hcol] at g
  refine ⟨addLRH E (hhTemp E ta tb α A B β) C, ?_, Rep.addLRH hE hC g⟩
  unfold hhH
  rw [isHier_iff.1 hh]
  simp only [hl, Bool.false_eq_true, if_false]

/-- **C57 fails**: if the partition of the processors is at least two levels below the root, the product of two divided matrices does nothing: the loops run
over the clusters of the partition, and `get_child_or_this` (add_hmatrix_hmatrix_product.hpp 261-266) finds none of these blocks among the children. -/
theorem C57_deep_partition {P : FNode G R → Prop} (hA : Shape .full P A) (ta tb : Trans) (α : R) (top : A.label.t.Top ∧ A.label.s.Top)
    (r1 : A.label.t.rk < 0) (r2 : A.label.s.rk < 0) (d1 : ∀ u ∈ A.label.t.kids, u.rk < 0)
    (hA' : A.isHier = true) (hB : B.isHier = true) (hC : C.isHier = true) (n : ℕ) :
    hhH E (n + 1) ta tb α A B 1 C = some C := by
  have bA : A.bad = true := bad_iff.2 (Or.inl r1)
  have okT := hA.self.clT
  have okS := hA.self.clS
  have nl1 : ¬ A.label.t.leaf = true := fun h => by have := okT.leaf_rank h; omega
  have nl2 : ¬ A.label.s.leaf = true := fun h => by have := okS.leaf_rank h; omega
  have deep : ∀ p ∈ A.label.t.front, A.label.t.root.label.depth + 2 ≤ p.root.label.depth := by
    intro p hp
    obtain ⟨d, hd, hpd⟩ := kids_front r1 hp
    have h1 := okT.kid_depth hd
    have h2 := ClusterTree.front_desc hpd
    have h3 := d1 d hd
    rcases (okT.desc (ClusterTree.kids_desc hd)).desc_depth h2.1 with e | e
    · subst e; have := h2.2; omega
    · omega
  have dep : ∀ {p q : ClusterTree G} {n : FNode G R}, n.isBlock p q = true → p.root.label.depth = n.t.root.label.depth := by
    intro p q n h
    unfold FNode.isBlock ClusterTree.ceq at h
    simp only [Bool.and_eq_true, decide_eq_true_eq] at h
    exact h.1.1.2
  have none : ∀ p ∈ A.label.t.front, ∀ q : ClusterTree G, getChild p q A = none := by
    intro p hp q
    have hd := deep p hp
    unfold getChild getChildOrThis
    rw [if_neg, List.find?_eq_none]
    · intro Y hY hb
      have hh := hA.hier_of_child hY
      have hm := List.mem_map_of_mem (f := fun c : FTree G R => (c.label.t, c.label.s)) hY
      rw [(hA.self.split hh).2, List.mem_filter, mem_pairs] at hm
      have hk : Y.label.t ∈ A.label.t.kids := by
        have := hm.1.1
        unfold subs at this
        rw [if_neg nl2, if_neg nl1, if_neg (by omega), if_neg (by omega)] at this
        exact this
      have h1 := okT.kid_depth hk
      have := dep hb
      omega
    · intro hb
      have := dep hb
      omega
  unfold hhH
  rw [isHier_iff.1 hC]
  simp only [hA', hB, bA, Bool.and_self, if_true, Bool.true_or]
  have skip : ∀ l : List (ClusterTree G × ClusterTree G × ClusterTree G),
      (∀ x ∈ l, x ∈ triples (clList true (A.outC ta)) (clList true (B.inC tb)) (clList true (A.inC ta))) →
      l.foldlM (fun C x =>
          match getChildOp ta x.1 x.2.2 A, getChildOp tb x.2.2 x.2.1 B, getChild x.1 x.2.1 C with
          | some Ac, some Bc, some _ => updChild x.1 x.2.1 (hhH E n ta tb α Ac Bc 1) C
          | _, _, _ => some C) C = some C := by
    intro l
    induction l with
    | nil => intro _; rfl
    | cons x l ih =>
      intro hm
      have hx := mem_triples.1 (hm x (by simp))
      have hnone : getChildOp ta x.1 x.2.2 A = Option.none := by
        unfold getChildOp
        by_cases e : ta = .N
        · rw [if_pos e]
          subst e
          refine none _ ?_ _
          rw [← clList_true okT top.1]; exact hx.1
        · rw [if_neg e]
          refine none _ ?_ _
          rw [← clList_true okT top.1]
          have := hx.2.2
          unfold FTree.inC at this
          rw [if_neg e] at this
          exact this
      rw [List.foldlM_cons]
      simp only [hnone]
      exact ih fun y hy => hm y (by simp [hy])
  exact skip _ fun _ h => h

end claims

/-! ## A concrete case -/

/-- For the cluster tree of `exBuild` (12 points, two parts) the hypotheses of C57 hold for all matrices. -/
example (MA MB MC : ℕ → ℕ → ℤ) : ∃ (E : LinOps ℤ) (A B C : FTree (List ℕ) ℤ), E.Exact ∧ Rep .full (fun _ _ => True) MA A ∧ Rep .full (fun _ _ => True) MB B ∧
    Rep .full (fun _ _ => True) MC C ∧ (A.label.t.Flat ∧ A.label.s.Flat) ∧ (B.label.t.Flat ∧ B.label.s.Flat) ∧ A.inC .T = B.outC .N ∧
    C.label.t = A.outC .T ∧ C.label.s = B.inC .N ∧ A.isHier = true ∧ B.isHier = true ∧ C.isHier = true ∧ 5 ≤ A.ht + B.ht := by
  obtain ⟨t, st, hr, hb⟩ := exBuild_built
  obtain ⟨E, -, hE⟩ := exact_ops_exist (R := ℤ) true (by simp)
  have w := create_wf hb.strategies hb.hflog hb.hnc hb.harg hb.hpos hb.build hb.ranks
  have s := create_shape hb.strategies hb.hflog hb.hnc hb.harg hb.build
  have good : (exEnv t st none none .N .N).Good := ⟨w.1, w.2, s.2.2.2.2, w.1, w.2, s.2.2.2.2, rfl, rfl, rfl⟩
  have h1 : ∀ r ∈ exBuild, ∃ b ∈ buildBlockTree (exEnv r.1 r.2 none none .N .N) 100 r.1 r.1, 3 ≤ b.ht ∧ b.label.kind = .hier := by decide +kernel
  obtain ⟨b, hbb, hht, hk⟩ := h1 (t, st) hr
  have h2 : ∀ r ∈ exBuild, ∀ u ∈ r.1.children, 0 ≤ u.rk := by decide +kernel
  have hflat : (clusterTreeOf t st).Flat := flat_of_top hb.clOK.2 (h2 (t, st) hr)
  have ex : ∀ M : ℕ → ℕ → ℤ, ∃ F : FTree (List ℕ) ℤ, Rep .full (fun _ _ => True) M F ∧ F.label.t = clusterTreeOf t st ∧ F.label.s = clusterTreeOf t st ∧
      F.isHier = true ∧ Tree.ht F = b.ht := by
    intro M
    obtain ⟨F, f1, f2, f3, f4, f5⟩ := rep_exists good rfl (show buildBlockTree (exEnv t st none none .N .N) 100 _ _ = some b from hbb) M
    refine ⟨F, f1, f2, f3, ?_, f4⟩
    unfold FTree.isHier
    rw [f5, label_map]
    simp only [hk]
  obtain ⟨A, a1, a2, a3, a4, a5⟩ := ex MA
  obtain ⟨B, b1, b2, b3, b4, b5⟩ := ex MB
  obtain ⟨C, c1, c2, c3, c4, -⟩ := ex MC
  refine ⟨E, A, B, C, hE, a1, b1, c1, ⟨by rw [a2]; exact hflat, by rw [a3]; exact hflat⟩, ⟨by rw [b2]; exact hflat, by rw [b3]; exact hflat⟩, ?_, ?_, ?_, a4, b4, c4, by omega⟩
  · show A.label.t = B.label.t; rw [a2, b2]
  · show C.label.t = A.label.s; rw [c2, a3]
  · show C.label.s = B.label.s; rw [c3, b3]

/-- A cluster tree with four parts, two levels below the root. -/
def exDeep : Option (CTree (List ℕ) × CState (List ℕ)) := createClusterTree exStrategies Nat.log 16 12 2 (.auto 4)

/-- The hypotheses of `C57_deep_partition` hold for this cluster tree and all matrices: the product is lost. -/
example (MA MB MC : ℕ → ℕ → ℤ) : ∃ (A B C : FTree (List ℕ) ℤ), Rep .full (fun _ _ => True) MA A ∧ Rep .full (fun _ _ => True) MB B ∧
    Rep .full (fun _ _ => True) MC C ∧ ∀ (E : LinOps ℤ) (n : ℕ) (ta tb : Trans) (α : ℤ), hhH E (n + 1) ta tb α A B 1 C = some C := by
  have h0 : exDeep.isSome := by decide +kernel
  obtain ⟨⟨t, st⟩, hr⟩ := Option.isSome_iff_exists.1 h0
  have h3 : ∀ r ∈ exDeep, ∀ l ∈ r.1.leaves, 0 ≤ l.label.rank := by decide +kernel
  have hb : Built exStrategies Nat.log 16 12 2 (.auto 4) t st :=
    ⟨exStrategies_ok, flogOK_log, by omega, (show (1 : ℕ) ≤ 4 by omega), trivial, hr, h3 (t, st) hr⟩
  have w := create_wf hb.strategies hb.hflog hb.hnc hb.harg hb.hpos hb.build hb.ranks
  have s := create_shape hb.strategies hb.hflog hb.hnc hb.harg hb.build
  have good : (exEnv t st none none .N .N).Good := ⟨w.1, w.2, s.2.2.2.2, w.1, w.2, s.2.2.2.2, rfl, rfl, rfl⟩
  have h1 : ∀ r ∈ exDeep, ∃ b ∈ buildBlockTree (exEnv r.1 r.2 none none .N .N) 100 r.1 r.1, b.label.kind = .hier := by decide +kernel
  obtain ⟨b, hbb, hk⟩ := h1 (t, st) hr
  have h2 : ∀ r ∈ exDeep, r.1.rk < 0 ∧ ∀ u ∈ r.1.children, u.rk < 0 := by decide +kernel
  have h2 := h2 (t, st) hr
  have ex : ∀ M : ℕ → ℕ → ℤ, ∃ F : FTree (List ℕ) ℤ, Rep .full (fun _ _ => True) M F ∧ F.label.t = clusterTreeOf t st ∧ F.label.s = clusterTreeOf t st ∧
      F.isHier = true := by
    intro M
    obtain ⟨F, f1, f2, f3, f4, f5⟩ := rep_exists good rfl (show buildBlockTree (exEnv t st none none .N .N) 100 _ _ = some b from hbb) M
    refine ⟨F, f1, f2, f3, ?_⟩
    unfold FTree.isHier
    rw [f5, label_map]
    simp only [hk]
  obtain ⟨A, a1, a2, a3, a4⟩ := ex MA
  obtain ⟨B, b1, b2, b3, b4⟩ := ex MB
  obtain ⟨C, c1, c2, c3, c4⟩ := ex MC
  refine ⟨A, B, C, a1, b1, c1, fun E n ta tb α => C57_deep_partition a1 ta tb α ⟨by rw [a2]; exact hb.clOK.2, by rw [a3]; exact hb.clOK.2⟩
    (by rw [a2]; exact h2.1) (by rw [a3]; exact h2.1) ?_ a4 b4 c4 n⟩
  rw [a2]
  intro u hu
  obtain ⟨v, hv, rfl⟩ := List.mem_map.1 hu
  exact h2.2 v hv

end Htool
