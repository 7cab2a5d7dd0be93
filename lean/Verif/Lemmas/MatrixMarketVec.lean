import Verif.Lemmas.MatrixMarket

/-! Vectors in Matrix Market files; a number format. -/

namespace Istl
namespace MM
variable {K : Type} [Zero K] {k : Nat}

/-- The numbers of a block vector, one after the other. -/
def flat (hk : 0 < k) (v : List (Fin k → K)) (q : Nat) : K := (v.getD (q / k) 0) ⟨q % k, Nat.mod_lt _ hk⟩

theorem flatMap_flat (g : K → List Char) : ∀ (v : List (Fin k → K)) (w : Nat → K),
    (∀ b (h : b < v.length) (j : Fin k), w (b * k + j.val) = v[b] j) →
    (v.flatMap fun blk => (List.finRange k).flatMap fun b => g (blk b)) = (List.range (v.length * k)).flatMap fun q => g (w q) := by
  intro v
  induction v with
  | nil => intro w _; simp
  | cons a v ih =>
    intro w h
    have e0 : ((List.finRange k).flatMap fun b => g (a b)) = (List.range k).flatMap fun q => g (w q) := by
      rw [← List.map_coe_finRange_eq_range, List.flatMap_map]
      congr 1; funext b
      have := h 0 (by simp) b
      simp only [Nat.zero_mul, Nat.zero_add, List.getElem_cons_zero] at this
      rw [this]
    have e1 := ih (fun q => w (k + q)) (fun b hb j => by
      have := h (b + 1) (by simpa using hb) j
      rw [List.getElem_cons_succ] at this
      rw [← this]; congr 1; ring)
    rw [List.flatMap_cons, e0, e1, List.length_cons, show (v.length + 1) * k = k + v.length * k by ring, List.range_add,
      List.flatMap_append, List.flatMap_map]

theorem readVectorLoop_spec {cd : Codec K} (hcd : cd.Lossless) (all : List Char) (w : Nat → K) (n : Nat) : ∀ (size i : Nat) (pre : List Char)
    (v : List (Fin k → K)), (∀ x ∈ pre, isSpace x = true) → v.length = n → i + size = n * k →
    ∃ s' v', readVectorLoop k cd i size (gs all (pre ++ (List.range' i size).flatMap fun q => cd.print (w q) ++ ['\n'])) v = .ok (s', v') ∧
      v'.length = n ∧ ∀ b (h : b < v'.length) (h2 : b < v.length) (j : Fin k), v'[b] j = if i ≤ b * k + j.val then w (b * k + j.val) else v[b] j := by
  intro size
  induction size with
  | zero =>
    intro i pre v _ hl hi
    refine ⟨_, v, rfl, hl, ?_⟩
    intro b h h2 j
    rw [if_neg]
    have h3 : b + 1 ≤ n := by omega
    have h4 := Nat.mul_le_mul_right k h3
    have h5 : (b + 1) * k = b * k + k := by ring
    have := j.isLt
    omega
  | succ size ih =>
    intro i pre v hp hl hi
    have hik : i / k < v.length := by
      rw [hl]
      apply Nat.div_lt_of_lt_mul
      rw [Nat.mul_comm]; omega
    have hk : 0 < k := by
      rcases Nat.eq_zero_or_pos k with h | h
      · subst h; omega
      · exact h
    have g := getVal_print hcd all pre (w i) '\n' ((List.range' (i + 1) size).flatMap fun q => cd.print (w q) ++ ['\n']) (by decide) hp
    obtain ⟨s', v', e, hl', hv⟩ := ih (i + 1) ['\n'] (v.set (i / k) fun b => if b.val = i % k then w i else v[i / k] b) (by decide) (by simpa using hl)
      (by omega)
    refine ⟨s', v', ?_, hl', ?_⟩
    · rw [List.range'_succ, List.flatMap_cons]
      simp only [List.append_assoc, List.cons_append, List.nil_append] at g e ⊢
      unfold readVectorLoop
      simp only [g]
      rw [show rd v (i / k) = .ok v[i / k] by simp [rd, hik], Res.ok_bind, show ∀ x, wr v (i / k) x = .ok (v.set (i / k) x) by simp [wr, hik], Res.ok_bind]
      exact e
    · intro b h h2 j
      rw [hv b h (by simpa using h2) j]
      by_cases h1 : i + 1 ≤ b * k + j.val
      · rw [if_pos h1, if_pos (by omega)]
      · rw [if_neg h1, List.getElem_set]
        have hdm := Nat.div_add_mod i k
        by_cases h3 : i = b * k + j.val
        · have hb : i / k = b := by rw [h3, Nat.mul_comm, Nat.mul_add_div hk, Nat.div_eq_of_lt j.isLt]; rfl
          have hj : j.val = i % k := by rw [hb, Nat.mul_comm] at hdm; omega
          rw [if_pos hb, if_pos hj, if_pos (show i ≤ b * k + j.val by omega), ← h3]
        · rw [if_neg (show ¬ i ≤ b * k + j.val by omega)]
          by_cases hb : i / k = b
          · rw [if_pos hb, if_neg]
            · subst hb; rfl
            · intro hj
              rw [hb, Nat.mul_comm] at hdm
              omega
          · rw [if_neg hb]

theorem readVector_write {cd : Codec K} (hcd : cd.Lossless) (hk : 0 < k) (fresh : Fin k → K) (ct : CType) (v : List (Fin k → K)) :
    readVector k fresh cd (In.ofText (writeVector ct cd.print v)) = .ok v := by
  have hw : ∀ b (h : b < v.length) (j : Fin k), flat hk v (b * k + j.val) = v[b] j := by
    intro b h j
    unfold flat
    have h1 : (b * k + j.val) / k = b := by rw [Nat.mul_comm, Nat.mul_add_div hk, Nat.div_eq_of_lt j.isLt]; rfl
    have h2 : (b * k + j.val) % k = j.val := by rw [Nat.mul_comm, Nat.mul_add_mod, Nat.mod_eq_of_lt j.isLt]
    simp only [h1, h2]
    rw [List.getD_eq_getElem?_getD, List.getElem?_eq_getElem h]; rfl
  have hf := flatMap_flat (fun x => cd.print x ++ ['\n']) v (flat hk v) hw
  generalize ht : writeVector ct cd.print v = t
  set body := (List.range (v.length * k)).flatMap fun q => cd.print (flat hk v q) ++ ['\n'] with hbody
  have hrest : t = "%%MatrixMarket".toList ++ ' ' :: ("matrix".toList ++ ' ' :: (MType.array.name ++ ' ' :: (ct.name ++ ' ' :: (Structure.general.name ++ '\n' ::
      ([" ISTL_STRUCT blocked ".toList ++ (dec k ++ " 1".toList)].flatMap commentText ++ (dec (v.length * k) ++ ' ' :: (dec 1 ++ '\n' :: body))))))) := by
    rw [← ht]
    unfold writeVector
    rw [hf]
    have e1 : "%%MatrixMarket matrix array ".toList = "%%MatrixMarket".toList ++ ' ' :: ("matrix".toList ++ ' ' :: (MType.array.name ++ [' '])) := by decide
    have e2 : " general\n".toList = ' ' :: (Structure.general.name ++ ['\n']) := by decide
    have e3 : "% ISTL_STRUCT blocked ".toList = '%' :: " ISTL_STRUCT blocked ".toList := by decide
    have e4 : " 1\n".toList = ' ' :: (dec 1 ++ ['\n']) := by decide
    have e5 : " 1".toList = ' ' :: dec 1 := by decide
    rw [e1, e2, e3, e4, e5]
    generalize "%%MatrixMarket".toList = b0
    generalize "matrix".toList = b1
    generalize " ISTL_STRUCT blocked ".toList = b2
    generalize MType.array.name = b3
    generalize Structure.general.name = b4
    simp only [commentText, List.flatMap_cons, List.flatMap_nil, List.append_nil, List.append_assoc, List.cons_append, List.nil_append]
  set rest := [" ISTL_STRUCT blocked ".toList ++ (dec k ++ " 1".toList)].flatMap commentText ++ (dec (v.length * k) ++ ' ' :: (dec 1 ++ '\n' :: body)) with hr
  have hb : readBanner (In.ofText t) = (true, ⟨.array, ct, .general⟩, gs t rest) := by
    have := readBanner_banner t rest (by simp [hr]) .array ct .general
    rw [← hrest] at this
    exact this
  obtain ⟨d, ds, hd, hdig⟩ := dec_cons (v.length * k)
  have hsk : skipComments (gs t rest) = gs t (dec (v.length * k) ++ ' ' :: (dec 1 ++ '\n' :: body)) := by
    rw [hr, hd]
    refine skipComments_start t _ d _ (digit_ne hdig (by decide)) (digit_ne hdig (by decide)) (digit_ne hdig (by decide)) ?_
    intro x hx
    rw [List.mem_singleton.1 hx]
    rw [List.mem_append, List.mem_append]
    rintro (h | h | h)
    · exact absurd h (by decide)
    · have := (dec_spec k).2.1 _ h
      exact absurd this (by decide)
    · exact absurd h (by decide)
  have l1 : lineFeed (gs t (dec (v.length * k) ++ ' ' :: (dec 1 ++ '\n' :: body))) = (false, gs t (dec (v.length * k) ++ ' ' :: (dec 1 ++ '\n' :: body))) := by
    rw [hd]
    exact lineFeed_other t d _ (digit_ne hdig (by decide)) (digit_ne hdig (by decide))
  have g1 := getNat_dec t [] (v.length * k) ' ' (dec 1 ++ '\n' :: body) (by simp) (by decide)
  have l2 : lineFeed (gs t (' ' :: (dec 1 ++ '\n' :: body))) = (false, gs t (dec 1 ++ '\n' :: body)) := by
    obtain ⟨d, ds, hd, hdig⟩ := dec_cons 1
    rw [hd]
    exact lineFeed_blank t d _ (digit_ne hdig (by decide)) (digit_ne hdig (by decide))
  have g2 := getNat_dec t [] 1 '\n' body (by simp) (by decide)
  have ig := ignoreLine_text t [] body (by simp)
  simp only [List.nil_append] at g1 g2 ig
  have d1 : v.length * k / k = v.length := Nat.mul_div_cancel _ hk
  obtain ⟨s', v', e, hl', hv⟩ := readVectorLoop_spec hcd t (flat hk v) v.length (v.length * k) 0 [] (List.replicate v.length fresh) (by simp) (by simp) (by omega)
  rw [← List.range_eq_range', List.nil_append, ← hbody] at e
  unfold readVector
  simp only [hb, hsk, l1, g1, l2, g2, ig, if_true, need, Res.ok_bind, d1, ne_eq, not_true, if_false, e, Bool.false_eq_true]
  congr 1
  apply List.ext_getElem hl'
  intro b h1 h2
  funext j
  rw [hv b h1 (by simpa using h2) j, if_pos (Nat.zero_le _), hw b h2 j]

/-! ### A number format: integers -/

/-- `ostr << v` and `istr >> v` for integers (no overflow). -/
def intCodec : Codec Int where
  print := fun v => if v < 0 then '-' :: dec v.natAbs else dec v.natAbs
  scan := fun l =>
    match l with
    | [] => none
    | ch :: t =>
      if ch = '-' then (if (t.takeWhile isDigit).isEmpty then none else some (-(ofDigits (t.takeWhile isDigit) : Int), t.dropWhile isDigit))
      else if ((ch :: t).takeWhile isDigit).isEmpty then none
      else some ((ofDigits ((ch :: t).takeWhile isDigit) : Int), (ch :: t).dropWhile isDigit)

theorem isDigit_of_space {c : Char} (h : isSpace c = true) : isDigit c = false := by
  by_contra hc
  rw [isSpace_of_digit (by simpa using hc)] at h
  exact absurd h (by decide)

theorem intCodec_lossless : intCodec.Lossless where
  head := by
    intro v
    simp only [intCodec]
    split
    · exact ⟨_, _, rfl, by decide⟩
    · obtain ⟨d, ds, hd, hdig⟩ := dec_cons v.natAbs
      exact ⟨d, ds, hd, isSpace_of_digit hdig⟩
  scan := by
    intro v c t hc
    obtain ⟨h1, h2, h3⟩ := dec_spec v.natAbs
    obtain ⟨e1, e2⟩ := takeWhile_append_stop (p := isDigit) (l := dec v.natAbs) (c := c) (t := t) h2 (isDigit_of_space hc)
    simp only [intCodec]
    by_cases hv : v < 0
    · rw [if_pos hv]
      simp only [List.cons_append, if_true, e1, e2, h3, List.isEmpty_iff, h1, if_false]
      congr 2; omega
    · rw [if_neg hv]
      obtain ⟨d, ds, hd, hdig⟩ := dec_cons v.natAbs
      rw [hd] at e1 e2 h1 h3 ⊢
      simp only [List.cons_append] at e1 e2 ⊢
      simp only [if_neg (digit_ne hdig (by decide : isDigit '-' = false)), e1, e2, h3, List.isEmpty_iff, h1, if_false]
      congr 2; omega

end MM
end Istl
