import Verif.Lemmas.Arpack

namespace Istl
namespace Arpack

variable {p q : Nat} {A : SpMat Blk}

theorem of_wrap : Of p q A (wrap p q A) := ⟨rfl, rfl, rfl, rfl, rfl⟩

theorem flat_idx {k B i : Nat} (b : BVec) (hi : i < k) : b.at' B i = b.flat k (B * k + i) := by
  rw [BVec.flat, idx_div hi, idx_mod hi]

theorem multMv_ok (hA : A.WF) (hsq : A.n = A.m) {W : Wrapped} (hW : Of p q A W) {v w : List ℝ} {f : Nat → ℝ}
    (hv : VecIs v (A.n * q) f) (hw : w.length = A.n * p) :
    ∃ w' W', multMv p q W v w = .ok (w', W') ∧ Of p q A W' ∧ VecIs w' (A.n * p) (mulVec (A.n * q) (flat p q A) f) := by
  obtain ⟨hWA, hm, hn, hd, hr⟩ := hW
  have hd : W.dom.n = A.n := hd
  have hr : W.ran.n = A.m := hr
  obtain ⟨d, h1, hdn, hdv⟩ := fromArray_ok hv W.dom (by rw [hd])
  have h2 := mvC_ok (p := p) (q := q) hA (x := d) (y := W.ran) (by rw [hdn, hd, hsq]) (by rw [hr, hsq])
  obtain ⟨w', h3, hw'⟩ := toArray_ok (k := p) { W.ran with at' := A.mv (act p q) d.at' W.ran.at' } w
    (by rw [hw]; show A.n * p = W.ran.n * p; rw [hr, hsq])
  refine ⟨w', { W with dom := d, ran := { W.ran with at' := A.mv (act p q) d.at' W.ran.at' } }, ?_, ?_, ?_⟩
  · rw [multMv, h1, Res.ok_bind, hWA, h2, Res.ok_bind, h3]; rfl
  · exact ⟨hWA, hm, hn, by show d.n = A.n; rw [hdn, hd], hr⟩
  · have e : W.ran.n = A.n := by rw [hr, hsq]
    rw [show ({ W.ran with at' := A.mv (act p q) d.at' W.ran.at' } : BVec).n = A.n from e] at hw'
    refine hw'.congr (fun i hi => ?_)
    refine Eq.trans (mv_flat hA (f := f) (fun B i hB hi => hdv B i (by rw [hd, hsq]; exact hB) hi) hi) (by rw [hsq])

theorem multMtMv_ok (hA : A.WF) (hsq : A.n = A.m) {W : Wrapped} (hW : Of p q A W) {v w : List ℝ} {f : Nat → ℝ}
    (hv : VecIs v (A.n * q) f) (hw : w.length = A.n * q) :
    ∃ w' W', multMtMv p q W v w = .ok (w', W') ∧ Of p q A W' ∧
      VecIs w' (A.n * q) (tmulVec (A.n * p) (flat p q A) (mulVec (A.n * q) (flat p q A) f)) := by
  obtain ⟨hWA, hm, hn, hd, hr⟩ := hW
  have hd : W.dom.n = A.n := hd
  have hr : W.ran.n = A.m := hr
  obtain ⟨d, h1, hdn, hdv⟩ := fromArray_ok hv W.dom (by rw [hd])
  have h2 := mvC_ok (p := p) (q := q) hA (x := d) (y := W.ran) (by rw [hdn, hd, hsq]) (by rw [hr, hsq])
  have h2' := mtvC_ok (p := p) (q := q) hA (x := { W.ran with at' := A.mv (act p q) d.at' W.ran.at' }) (y := d)
    (by show A.n ≤ W.ran.n; rw [hr, hsq]) (by rw [hdn, hd, hsq])
  set r : BVec := { W.ran with at' := A.mv (act p q) d.at' W.ran.at' } with hrdef
  set d' : BVec := { d with at' := A.umtv (act p q) r.at' (forRange d.n (fun i y => upd y i 0) d.at') } with hd'
  have e : d'.n = A.n := by rw [← hd, ← hdn]
  obtain ⟨w', h3, hw'⟩ := toArray_ok (k := q) d' w (by rw [hw, e])
  refine ⟨w', { W with dom := d', ran := r }, ?_, ?_, ?_⟩
  · rw [multMtMv, h1, Res.ok_bind, hWA, h2, Res.ok_bind, h2', Res.ok_bind, h3]; rfl
  · exact ⟨hWA, hm, hn, e, hr⟩
  · rw [e] at hw'
    refine hw'.congr (fun i hi => ?_)
    rw [BVec.flat, hd']
    refine tmv_flat hA (fun B i hB hi => ?_) (by rw [hdn, hd]; exact hi)
    rw [flat_idx r hi, BVec.flat, hrdef]
    refine Eq.trans (mv_flat hA (f := f) (fun B i hB hi => hdv B i (by rw [hd, hsq]; exact hB) hi) (idx_lt hB hi)) (by rw [hsq])

theorem multMMtv_ok (hA : A.WF) (hsq : A.n = A.m) {W : Wrapped} (hW : Of p q A W) {v w : List ℝ} {f : Nat → ℝ}
    (hv : VecIs v (A.n * p) f) (hw : w.length = A.n * p) :
    ∃ w' W', multMMtv p q W v w = .ok (w', W') ∧ Of p q A W' ∧
      VecIs w' (A.n * p) (mulVec (A.n * q) (flat p q A) (tmulVec (A.n * p) (flat p q A) f)) := by
  obtain ⟨hWA, hm, hn, hd, hr⟩ := hW
  have hd : W.dom.n = A.n := hd
  have hr : W.ran.n = A.m := hr
  obtain ⟨r, h1, hrn, hrv⟩ := fromArray_ok hv W.ran (by rw [hr, hsq])
  have h2 := mtvC_ok (p := p) (q := q) hA (x := r) (y := W.dom) (by rw [hrn, hr, hsq]) (by rw [hd, hsq])
  have h2' := mvC_ok (p := p) (q := q) hA
    (x := { W.dom with at' := A.umtv (act p q) r.at' (forRange W.dom.n (fun i y => upd y i 0) W.dom.at') }) (y := r)
    (by show A.m ≤ W.dom.n; rw [hd, hsq]) (by rw [hrn, hr, hsq])
  set d : BVec := { W.dom with at' := A.umtv (act p q) r.at' (forRange W.dom.n (fun i y => upd y i 0) W.dom.at') } with hddef
  set r' : BVec := { r with at' := A.mv (act p q) d.at' r.at' } with hr'
  have e : r'.n = A.n := by rw [hsq, ← hr, ← hrn]
  obtain ⟨w', h3, hw'⟩ := toArray_ok (k := p) r' w (by rw [hw, e])
  refine ⟨w', { W with dom := d, ran := r' }, ?_, ?_, ?_⟩
  · rw [multMMtv, h1, Res.ok_bind, hWA, h2, Res.ok_bind, h2', Res.ok_bind, h3]; rfl
  · exact ⟨hWA, hm, hn, hd, by rw [e]; exact hsq⟩
  · rw [e] at hw'
    refine hw'.congr (fun i hi => ?_)
    rw [BVec.flat, hr']
    refine Eq.trans (mv_flat hA (f := tmulVec (A.n * p) (flat p q A) f) (fun B i hB hi => ?_) hi) (by rw [hsq])
    rw [flat_idx d hi, BVec.flat, hddef]
    refine tmv_flat hA (fun B i hB hi => ?_) (by rw [hd, hsq]; exact idx_lt hB hi)
    exact hrv B i (by rw [hr, ← hsq]; exact hB) hi

theorem rep_len (n : Nat) : (List.replicate n (0 : ℝ)).length = n := by simp

theorem callMv_ok (hA : A.WF) (hsq : A.n = A.m) :
    Computes (A.n * q) (A.n * p) (callMv p q (wrap p q A) (A.n * p)) (mulVec (A.n * q) (flat p q A)) := by
  intro v f hv
  obtain ⟨w', W', h, _, hw⟩ := multMv_ok hA hsq of_wrap hv (rep_len (A.n * p))
  exact ⟨w', by rw [callMv, h]; rfl, hw⟩

theorem callMtMv_ok (hA : A.WF) (hsq : A.n = A.m) :
    Computes (A.n * q) (A.n * q) (callMtMv p q (wrap p q A) (A.n * q))
      (fun f => tmulVec (A.n * p) (flat p q A) (mulVec (A.n * q) (flat p q A) f)) := by
  intro v f hv
  obtain ⟨w', W', h, _, hw⟩ := multMtMv_ok hA hsq of_wrap hv (rep_len (A.n * q))
  exact ⟨w', by rw [callMtMv, h]; rfl, hw⟩

theorem vecIs_getD (X : List ℝ) : VecIs X X.length (fun i => X.getD i 0) :=
  ⟨rfl, fun i hi => by rw [rd_lt hi]; simp [hi]⟩

theorem VecIs.get {X : List ℝ} {n : Nat} {f : Nat → ℝ} (h : VecIs X n f) {i : Nat} (hi : i < n) : X[i]? = some (f i) := by
  have := h.2 i hi
  rw [rd] at this
  split at this <;> rename_i e
  · rw [e]; cases this; rfl
  · cases this

theorem vecIs_ext {X Y : List ℝ} {n : Nat} {f : Nat → ℝ} (h : VecIs X n f) (h' : VecIs Y n f) : X = Y := by
  apply List.ext_getElem?
  intro i
  rcases Nat.lt_or_ge i n with hi | hi
  · rw [VecIs.get h hi, VecIs.get h' hi]
  · rw [List.getElem?_eq_none (by rw [h.1]; exact hi), List.getElem?_eq_none (by rw [h'.1]; exact hi)]

theorem vecIs_smul {X : List ℝ} {n : Nat} {f : Nat → ℝ} (h : VecIs X n f) (c : ℝ) :
    VecIs (X.map (fun z => c * z)) n (fun i => c * f i) :=
  ⟨by rw [List.length_map, h.1], fun i hi => by rw [rd, List.getElem?_map, VecIs.get h hi]; rfl⟩

theorem vecIs_ofFun (n : Nat) (f : Nat → ℝ) : VecIs ((List.range n).map f) n f :=
  ⟨by simp, fun i hi => by rw [rd, List.getElem?_map, List.getElem?_range hi]; rfl⟩

theorem vecIs_fun {X : List ℝ} {n : Nat} {f g : Nat → ℝ} (h : VecIs X n f) (h' : VecIs X n g) {i : Nat} (hi : i < n) : f i = g i := by
  have := VecIs.get h hi
  rw [VecIs.get h' hi] at this
  exact (Option.some.inj this).symm

section Pairs
variable {n : Nat} {op : List ℝ → Res (List ℝ)} {T : (Nat → ℝ) → Nat → ℝ}

theorem eig_of_pair (hop : Computes n n op T) {lam : ℝ} {X : List ℝ} {f : Nat → ℝ} (hX : VecIs X n f) (h : EigPair n op lam X) :
    IsEig n T lam f := by
  obtain ⟨_, ⟨z, hz, hz0⟩, ho⟩ := h
  obtain ⟨w, hw, hv⟩ := hop X f hX
  rw [ho] at hw
  injection hw with hw
  refine ⟨?_, fun i hi => vecIs_fun hv (hw ▸ vecIs_smul hX lam) hi⟩
  obtain ⟨i, hi, e⟩ := List.getElem_of_mem hz
  refine ⟨i, by rw [← hX.1]; exact hi, ?_⟩
  have := VecIs.get hX (i := i) (by rw [← hX.1]; exact hi)
  rw [List.getElem?_eq_getElem hi, e] at this
  rw [← Option.some.inj this]; exact hz0

theorem pair_of_eig (hop : Computes n n op T) {lam : ℝ} {f : Nat → ℝ} (h : IsEig n T lam f) :
    EigPair n op lam ((List.range n).map f) := by
  obtain ⟨⟨i, hi, h0⟩, he⟩ := h
  have hX := vecIs_ofFun n f
  obtain ⟨w, hw, hv⟩ := hop _ f hX
  refine ⟨by simp, ⟨f i, List.mem_map_of_mem (List.mem_range.mpr hi), h0⟩, ?_⟩
  rw [hw, vecIs_ext (hv.congr he) (vecIs_smul hX lam)]

theorem getElem_zero {α : Type} {l : List α} (h : l.length = 1) : ∃ a, l = [a] := List.length_eq_one_iff.mp h

theorem getElem_two {α : Type} {l : List α} (h : l.length = 2) : ∃ a b, l = [a, b] := List.length_eq_two.mp h

end Pairs

/-- The normal matrix. -/
noncomputable def normal (r : Nat) (M : Nat → Nat → ℝ) (i j : Nat) : ℝ := ∑ l ∈ Finset.range r, M l i * M l j

theorem normal_eq (r c : Nat) (M : Nat → Nat → ℝ) (v : Nat → ℝ) (i : Nat) :
    mulVec c (normal r M) v i = tmulVec r M (mulVec c M v) i := by
  simp only [mulVec, tmulVec, normal, Finset.sum_mul, Finset.mul_sum]
  rw [Finset.sum_comm]
  exact Finset.sum_congr rfl (fun l _ => Finset.sum_congr rfl (fun j _ => by ring))

theorem normal_form (r c : Nat) (M : Nat → Nat → ℝ) (v : Nat → ℝ) :
    ∑ i ∈ Finset.range c, v i * mulVec c (normal r M) v i = normSq r (mulVec c M v) := by
  simp only [normal_eq, tmulVec, normSq, Finset.mul_sum]
  rw [Finset.sum_comm]
  refine Finset.sum_congr rfl (fun l _ => ?_)
  have e : mulVec c M v l * mulVec c M v l = ∑ j ∈ Finset.range c, M l j * v j * mulVec c M v l := by
    rw [← Finset.sum_mul]; rfl
  rw [e]
  exact Finset.sum_congr rfl (fun j _ => by ring)

theorem normal_symm (r : Nat) (M : Nat → Nat → ℝ) (i j : Nat) : normal r M i j = normal r M j i :=
  Finset.sum_congr rfl (fun l _ => by ring)

theorem normSq_nonneg (n : Nat) (v : Nat → ℝ) : 0 ≤ normSq n v := Finset.sum_nonneg (fun i _ => mul_self_nonneg _)

theorem normSq_pos {n : Nat} {v : Nat → ℝ} (h : ∃ i < n, v i ≠ 0) : 0 < normSq n v := by
  obtain ⟨i, hi, h0⟩ := h
  exact Finset.sum_pos' (fun i _ => mul_self_nonneg _) ⟨i, Finset.mem_range.mpr hi, mul_self_pos.mpr h0⟩

theorem eig_stretch {r c : Nat} {M : Nat → Nat → ℝ} {lam : ℝ} {f : Nat → ℝ}
    (h : IsEig c (fun f => tmulVec r M (mulVec c M f)) lam f) : normSq r (mulVec c M f) = lam * normSq c f ∧ 0 ≤ lam := by
  have e : normSq r (mulVec c M f) = lam * normSq c f := by
    rw [← normal_form, normSq, Finset.mul_sum]
    refine Finset.sum_congr rfl (fun i hi => ?_)
    rw [normal_eq, show tmulVec r M (mulVec c M f) i = lam * f i from h.2 i (Finset.mem_range.mp hi)]; ring
  refine ⟨e, ?_⟩
  by_contra hl
  have := normSq_pos h.1
  have h2 := normSq_nonneg r (mulVec c M f)
  rw [e] at h2
  nlinarith

theorem eig_normal {r c : Nat} {M : Nat → Nat → ℝ} {mu : ℝ} {f : Nat → ℝ} :
    IsEig c (mulVec c (normal r M)) mu f ↔ IsEig c (fun f => tmulVec r M (mulVec c M f)) mu f := by
  simp only [IsEig, normal_eq]

theorem maxStretch_of {r c : Nat} {M : Nat → Nat → ℝ} {lam : ℝ} {f : Nat → ℝ}
    (h : IsEig c (fun f => tmulVec r M (mulVec c M f)) lam f)
    (hs : ∀ mu g, IsEig c (fun f => tmulVec r M (mulVec c M f)) mu g → mu ≤ lam) : MaxStretch r c M (Real.sqrt lam) f := by
  obtain ⟨he, hl⟩ := eig_stretch h
  refine ⟨Real.sqrt_nonneg _, h.1, by rw [Real.sq_sqrt hl, he], fun v => ?_⟩
  rw [Real.sq_sqrt hl, ← normal_form]
  exact form_le (fun i j _ _ => normal_symm r M i j) (fun mu g hg => hs mu g (eig_normal.mp hg)) v

theorem minStretch_of {r c : Nat} {M : Nat → Nat → ℝ} {lam : ℝ} {f : Nat → ℝ}
    (h : IsEig c (fun f => tmulVec r M (mulVec c M f)) lam f)
    (hs : ∀ mu g, IsEig c (fun f => tmulVec r M (mulVec c M f)) mu g → lam ≤ mu) : MinStretch r c M (Real.sqrt lam) f := by
  obtain ⟨he, hl⟩ := eig_stretch h
  refine ⟨Real.sqrt_nonneg _, h.1, by rw [Real.sq_sqrt hl, he], fun v => ?_⟩
  rw [Real.sq_sqrt hl, ← normal_form]
  exact form_ge (fun i j _ _ => normal_symm r M i j) (fun mu g hg => hs mu g (eig_normal.mp hg)) v

end Arpack
end Istl
