import Verif.Lemmas.MMDefect2

/-! Vectors behind any preamble. -/

namespace Istl
namespace MM
variable {K : Type} [Zero K] {k : Nat}

open Classical in
/-- The vector reader behind any preamble. -/
theorem readVector_preamble (fresh : Fin k → K) (cd : Codec K) (P : Preamble) (hP : P.Ok) (N M : Nat) (body : List Char) :
    readVector k fresh cd (In.ofText (P.text ++ (dec N ++ (' ' :: (dec M ++ '\n' :: body))))) =
      if M ≠ 1 then .throw .formatError
      else if P.Complete ∧ P.said.type ≠ .array then .throw .formatError
      else if N / k * k ≠ N then .throw .formatError
      else (readVectorLoop k cd 0 N (gs (P.text ++ (dec N ++ (' ' :: (dec M ++ '\n' :: body)))) body) (List.replicate (N / k) fresh) >>= fun x => .ok x.2) := by
  set t := P.text ++ (dec N ++ (' ' :: (dec M ++ '\n' :: body))) with ht
  obtain ⟨d, ds, hd, hdig⟩ := dec_cons N
  obtain ⟨h1, h2, h3⟩ := readHeader_preamble P hP d (ds ++ (' ' :: (dec M ++ '\n' :: body))) hdig
  rw [← List.cons_append, ← hd, ← ht] at h1 h2 h3
  have l1 := lineFeed_dec t N (' ' :: (dec M ++ '\n' :: body))
  have g1 := getNat_dec t [] N ' ' (dec M ++ '\n' :: body) (by simp) (by decide)
  have l2 := lineFeed_blank_dec t M ('\n' :: body)
  have g2 := getNat_dec t [] M '\n' body (by simp) (by decide)
  have ig := ignoreLine_text t [] body (by simp)
  simp only [List.nil_append] at g1 g2 ig
  unfold readHeader at h1 h2
  unfold readVector
  by_cases hb : (readBanner (In.ofText t)).1 = true
  · simp only [hb, if_true] at h1 h2
    have hC := h3.1 hb
    simp only [hb, if_true, h1, h2, l1, g1, l2, g2, ig, need, Res.ok_bind, Bool.false_eq_true, if_false, hC, true_and]
  · simp only [hb, if_false, Bool.false_eq_true] at h2
    have hC : ¬ P.Complete := fun h => hb (h3.2 h)
    rw [show (In.ofText t).all = t from rfl] at h2 ⊢
    simp only [hb, if_false, h2, l1, g1, l2, g2, ig, need, Res.ok_bind, Bool.false_eq_true, hC, false_and, ne_eq, not_true]

theorem readVector_short (fresh : Fin k → K) (cd : Codec K) (P : Preamble) (hP : P.Ok) (N j : Nat) (body : List Char) :
    readVector k fresh cd (In.ofText (P.text ++ (dec N ++ (List.replicate j ' ' ++ '\n' :: body)))) = .throw .formatError := by
  set t := P.text ++ (dec N ++ (List.replicate j ' ' ++ '\n' :: body)) with ht
  obtain ⟨d, ds, hd, hdig⟩ := dec_cons N
  obtain ⟨h1, h2, h3⟩ := readHeader_preamble P hP d (ds ++ (List.replicate j ' ' ++ '\n' :: body)) hdig
  rw [← List.cons_append, ← hd, ← ht] at h1 h2 h3
  have l1 := lineFeed_dec t N (List.replicate j ' ' ++ '\n' :: body)
  have g1 : getNat (gs t (dec N ++ (List.replicate j ' ' ++ '\n' :: body))) = (some N, gs t (List.replicate j ' ' ++ '\n' :: body)) := by
    cases j with
    | zero => simpa using getNat_dec t [] N '\n' body (by simp) (by decide)
    | succ j => simpa [List.replicate_succ] using getNat_dec t [] N ' ' (List.replicate j ' ' ++ '\n' :: body) (by simp) (by decide)
  have l2 := lineFeed_blanks t '\n' body j (by decide)
  rw [if_pos rfl] at l2
  unfold readHeader at h1 h2
  unfold readVector
  by_cases hb : (readBanner (In.ofText t)).1 = true
  · simp only [hb, if_true] at h1 h2
    simp only [hb, if_true, h1, h2, l1, g1, l2, need, Res.ok_bind, Bool.false_eq_true, if_false]
  · simp only [hb, if_false, Bool.false_eq_true] at h2
    rw [show (In.ofText t).all = t from rfl] at h2 ⊢
    simp only [hb, if_false, h2, l1, g1, l2, need, Res.ok_bind, Bool.false_eq_true, if_true]

/-- The numbers of a vector are read back. -/
theorem readVectorLoop_blocks {cd : Codec K} (hcd : cd.Lossless) (hk : 0 < k) (fresh : Fin k → K) (all : List Char) (v : List (Fin k → K)) :
    (readVectorLoop k cd 0 (v.length * k) (gs all (v.flatMap fun blk => (List.finRange k).flatMap fun b => cd.print (blk b) ++ ['\n']))
      (List.replicate v.length fresh) >>= fun x => Res.ok x.2) = .ok v := by
  have hw : ∀ b (h : b < v.length) (j : Fin k), flat hk v (b * k + j.val) = v[b] j := by
    intro b h j
    unfold flat
    have h1 : (b * k + j.val) / k = b := by rw [Nat.mul_comm, Nat.mul_add_div hk, Nat.div_eq_of_lt j.isLt]; rfl
    have h2 : (b * k + j.val) % k = j.val := by rw [Nat.mul_comm, Nat.mul_add_mod, Nat.mod_eq_of_lt j.isLt]
    simp only [h1, h2]
    rw [List.getD_eq_getElem?_getD, List.getElem?_eq_getElem h]; rfl
  have hf := flatMap_flat (fun x => cd.print x ++ ['\n']) v (flat hk v) hw
  obtain ⟨s', v', e, hl', hv⟩ := readVectorLoop_spec hcd all (flat hk v) v.length (v.length * k) 0 [] (List.replicate v.length fresh) (by simp) (by simp) (by omega)
  rw [← List.range_eq_range', List.nil_append] at e
  rw [hf, e, Res.ok_bind]
  congr 1
  apply List.ext_getElem hl'
  intro b h1 h2
  funext j
  rw [hv b h1 (by simpa using h2) j, if_pos (Nat.zero_le _), hw b h2 j]

/-- Fewer numbers than announced. -/
theorem readVectorLoop_truncated {cd : Codec K} (hcd : cd.Lossless) (all : List Char) : ∀ (vals : List K) (size i : Nat) (pre : List Char)
    (v : List (Fin k → K)), (pre = [] ∨ pre = ['\n']) → vals.length < size → i + size ≤ v.length * k →
    readVectorLoop k cd i size (gs all (pre ++ vals.flatMap fun x => cd.print x ++ ['\n'])) v = .ub := by
  intro vals
  induction vals with
  | nil =>
    intro size i pre v hp hs hi
    obtain ⟨size, rfl⟩ : ∃ n, size = n + 1 := ⟨size - 1, by simp at hs; omega⟩
    unfold readVectorLoop
    have : (getVal cd (gs all (pre ++ ([] : List K).flatMap fun x => cd.print x ++ ['\n']))).1 = none := by
      rcases hp with rfl | rfl <;> simp [getVal, formatted, gs, isSpace]
    simp only [this]
  | cons x vals ih =>
    intro size i pre v hp hs hi
    obtain ⟨size, rfl⟩ : ∃ n, size = n + 1 := ⟨size - 1, by simp at hs; omega⟩
    have hk : 0 < k := by
      rcases Nat.eq_zero_or_pos k with h | h
      · subst h; omega
      · exact h
    have hik : i / k < v.length := by
      apply Nat.div_lt_of_lt_mul
      rw [Nat.mul_comm]; omega
    have g := getVal_print hcd all pre x '\n' (vals.flatMap fun x => cd.print x ++ ['\n']) (by decide) (by
      rcases hp with rfl | rfl <;> decide)
    simp only [List.flatMap_cons, List.append_assoc, List.cons_append, List.nil_append] at g ⊢
    unfold readVectorLoop
    simp only [g]
    rw [show rd v (i / k) = .ok v[i / k] by simp [rd, hik], Res.ok_bind, show ∀ x, wr v (i / k) x = .ok (v.set (i / k) x) by simp [wr, hik], Res.ok_bind]
    exact ih size (i + 1) ['\n'] _ (.inr rfl) (by simp at hs; omega) (by rw [List.length_set]; omega)

end MM
end Istl
