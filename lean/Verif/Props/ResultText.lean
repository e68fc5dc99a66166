import Verif.Spec.ResultText

/-!
# Reading the result file: C136
-/

set_option linter.unusedSectionVars false
set_option autoImplicit false

namespace Verif
namespace Bench

variable {K : Type*} [Field K] [LinearOrder K] [IsStrictOrderedRing K]

/-! ### Digits -/

theorem digitChar_toNat {d : ℕ} (h : d < 10) : (digitChar d).toNat = 48 + d := by
  unfold digitChar
  interval_cases d <;> rfl

theorem natText_digit {n : ℕ} {ch : Char} (h : ch ∈ natText n) : 48 ≤ ch.toNat ∧ ch.toNat ≤ 57 := by
  unfold natText at h
  split at h
  · rw [List.mem_singleton.1 h]; decide
  · obtain ⟨d, hd, rfl⟩ := List.mem_map.1 h
    have := Nat.digits_lt_base (by norm_num : 1 < 10) (List.mem_reverse.1 hd)
    rw [digitChar_toNat this]
    omega

theorem natText_ne (n : ℕ) : natText n ≠ [] := by
  unfold natText
  split
  · simp
  · rename_i h
    simp [Nat.digits_eq_nil_iff_eq_zero, h]

theorem foldl_digits (l : List ℕ) (h : ∀ d ∈ l, d < 10) :
    (l.reverse.map digitChar).foldl (fun a ch => 10 * a + (ch.toNat - 48)) 0 = Nat.ofDigits 10 l := by
  induction l with
  | nil => rfl
  | cons d l ih =>
    rw [List.reverse_cons, List.map_append, List.foldl_append, ih fun x hx => h x (List.mem_cons_of_mem _ hx)]
    simp only [List.map_cons, List.map_nil, List.foldl_cons, List.foldl_nil, digitChar_toNat (h d (by simp)),
      Nat.ofDigits_cons]
    simp
    omega

theorem natText_value (n : ℕ) : (natText n).foldl (fun a ch => 10 * a + (ch.toNat - 48)) 0 = n := by
  unfold natText
  split
  · rename_i h; subst h; rfl
  · rw [foldl_digits _ fun d hd => Nat.digits_lt_base (by norm_num) hd, Nat.ofDigits_digits]

theorem foldl_zeros (k : ℕ) (l : List Char) :
    (List.replicate k '0' ++ l).foldl (fun a ch => 10 * a + (ch.toNat - 48)) 0 =
      l.foldl (fun a ch => 10 * a + (ch.toNat - 48)) 0 := by
  induction k with
  | zero => rfl
  | succ k ih =>
    rw [List.replicate_succ, List.cons_append, List.foldl_cons]
    exact ih

theorem zpad_digit {k n : ℕ} {ch : Char} (h : ch ∈ zpad k (natText n)) : 48 ≤ ch.toNat ∧ ch.toNat ≤ 57 := by
  rcases List.mem_append.1 h with h | h
  · rw [(List.mem_replicate.1 h).2]; decide
  · exact natText_digit h

theorem readNat_zpad (k n : ℕ) : readNat (zpad k (natText n)) = some n := by
  unfold readNat
  rw [if_pos ⟨by simp [zpad, natText_ne], fun ch h => zpad_digit h⟩, zpad, foldl_zeros, natText_value]

theorem readNat_natText (n : ℕ) : readNat (natText n) = some n := by
  have := readNat_zpad 0 n
  simpa [zpad] using this

theorem natText_length {n p : ℕ} (hp : 0 < p) (h : n < 10 ^ p) : (natText n).length ≤ p := by
  unfold natText
  split
  · exact hp
  · rw [List.length_map, List.length_reverse]
    exact (Nat.digits_length_le_iff (by norm_num) n).2 h

theorem zpad_length {n p : ℕ} (hp : 0 < p) (h : n < 10 ^ p) : (zpad p (natText n)).length = p := by
  have := natText_length hp h
  simp [zpad]
  omega

/-! ### Numbers -/

theorem digit_ne_point {ch : Char} (h : 48 ≤ ch.toNat ∧ ch.toNat ≤ 57) : ch ≠ '.' := by
  rintro rfl
  exact absurd h (by decide)

theorem readAbs_text {a b p : ℕ} (hp : 0 < p) (hb : b < 10 ^ p) :
    readAbs (K := K) (natText a ++ '.' :: zpad p (natText b)) = some ((a : K) + (b : K) / 10 ^ p) := by
  have h1 : ∀ ch ∈ natText a, (decide (ch ≠ '.')) = true := fun ch h => decide_eq_true (digit_ne_point (natText_digit h))
  unfold readAbs
  rw [List.takeWhile_append_of_pos h1, List.dropWhile_append_of_pos h1]
  simp [readNat_natText, readNat_zpad, zpad_length hp hb]

theorem first_digit (a : ℕ) : ∃ ch r, natText a = ch :: r ∧ 48 ≤ ch.toNat ∧ ch.toNat ≤ 57 := by
  obtain ⟨ch, r, h⟩ := List.exists_cons_of_ne_nil (natText_ne a)
  exact ⟨ch, r, h, natText_digit (h ▸ List.mem_cons_self)⟩

/-- What the text of a number reads as. -/
theorem readNum_dec {rnd : K → ℕ} (hr : Nearest rnd) {p : ℕ} (hp : 0 < p) (v : XF K) :
    ReadsNear (1 / 2 / 10 ^ p) (decText rnd p v) v := by
  cases v with
  | nan => rfl
  | pinf => rfl
  | ninf => rfl
  | fin x =>
    have h10 : (0 : K) < 10 ^ p := by positivity
    set n := rnd (|x| * 10 ^ p) with hn
    have hlt : n % 10 ^ p < 10 ^ p := Nat.mod_lt _ (by positivity)
    have hval : ((n / 10 ^ p : ℕ) : K) + ((n % 10 ^ p : ℕ) : K) / 10 ^ p = (n : K) / 10 ^ p := by
      rw [eq_div_iff h10.ne', add_mul, div_mul_cancel₀ _ h10.ne']
      have := Nat.div_add_mod n (10 ^ p)
      exact_mod_cast (by rw [mul_comm]; exact this)
    have hnear : |(n : K) / 10 ^ p - (|x|)| ≤ 1 / 2 / 10 ^ p := by
      have h1 := hr (|x| * 10 ^ p) (by positivity)
      rw [← hn] at h1
      have e : (n : K) / 10 ^ p - |x| = ((n : K) - |x| * 10 ^ p) / 10 ^ p := by field_simp
      rw [e, abs_div, abs_of_pos h10]
      exact div_le_div_of_nonneg_right h1 h10.le
    obtain ⟨ch, r, hch, hd⟩ := first_digit (n / 10 ^ p)
    have hra := readAbs_text (K := K) (a := n / 10 ^ p) hp hlt
    rw [hval] at hra
    have hcne : ∀ c : Char, ¬ (48 ≤ c.toNat ∧ c.toNat ≤ 57) → ch ≠ c := by
      rintro c hc rfl
      exact hc hd
    show ∃ y, readNum (decText rnd p (.fin x)) = some (.fin y) ∧ _
    by_cases hx : x < 0
    · refine ⟨-((n : K) / 10 ^ p), ?_, ?_⟩
      · have e : decText rnd p (.fin x) = ['-'] ++ (natText (n / 10 ^ p) ++ '.' :: zpad p (natText (n % 10 ^ p))) := by
          simp only [decText, if_pos hx, ← hn]
        rw [e]
        unfold readNum
        have h3 : ['-'] ++ (natText (n / 10 ^ p) ++ '.' :: zpad p (natText (n % 10 ^ p))) ≠ ['-', 'i', 'n', 'f'] := by
          rw [hch]
          intro h
          have := (List.cons.inj h).2
          exact hcne 'i' (by decide) (List.cons.inj this).1
        rw [if_neg (by intro h; exact absurd (List.cons.inj h).1 (by decide)),
          if_neg (by intro h; exact absurd (List.cons.inj h).1 (by decide)), if_neg h3]
        simp only [List.singleton_append, hra, Option.map_some]
      · rw [abs_of_neg hx] at hnear
        have : -((n : K) / 10 ^ p) - x = -((n : K) / 10 ^ p - -x) := by ring
        rw [this, abs_neg]
        exact hnear
    · refine ⟨(n : K) / 10 ^ p, ?_, ?_⟩
      · have e : decText rnd p (.fin x) = natText (n / 10 ^ p) ++ '.' :: zpad p (natText (n % 10 ^ p)) := by
          simp only [decText, if_neg hx, ← hn, List.nil_append]
        rw [e]
        unfold readNum
        rw [hch]
        rw [if_neg (by intro h; exact hcne 'n' (by decide) (List.cons.inj h).1),
          if_neg (by intro h; exact hcne 'i' (by decide) (List.cons.inj h).1),
          if_neg (by intro h; exact hcne '-' (by decide) (List.cons.inj h).1)]
        have hm : ch ≠ '-' := hcne '-' (by decide)
        rw [hch] at hra
        simp only [List.cons_append]
        split
        · rename_i h
          exact absurd (List.cons.inj h).1 hm
        · rw [← List.cons_append, hra]
          rfl
      · rw [abs_of_nonneg (not_lt.1 hx)] at hnear
        exact hnear

/-! ### The formatting is made of words -/

theorem digits_no_blank {l : List Char} (h : ∀ ch ∈ l, 48 ≤ ch.toNat ∧ ch.toNat ≤ 57) : ' ' ∉ l := fun hm =>
  absurd (h _ hm) (by decide)

theorem printf_ok (rnd : K → ℕ) : (printf rnd).Ok := by
  refine ⟨fun n => ⟨natText_ne n, digits_no_blank fun ch h => natText_digit h⟩, fun p v => ?_⟩
  cases v with
  | nan => exact ⟨by simp [printf, decText], by simp [printf, decText]⟩
  | pinf => exact ⟨by simp [printf, decText], by simp [printf, decText]⟩
  | ninf => exact ⟨by simp [printf, decText], by simp [printf, decText]⟩
  | fin x =>
    refine ⟨by simp [printf, decText], ?_⟩
    have h1 := digits_no_blank fun ch (h : ch ∈ natText (rnd (|x| * 10 ^ p) / 10 ^ p)) => natText_digit h
    have h2 := digits_no_blank fun ch (h : ch ∈ zpad p (natText (rnd (|x| * 10 ^ p) % 10 ^ p))) => zpad_digit h
    simp only [printf, decText, List.mem_append, List.mem_cons, not_or]
    refine ⟨?_, h1, by decide, h2⟩
    split <;> simp

/-- Numbers from -999 to 9999 take at most eight characters with three decimals. -/
theorem dec_short {rnd : K → ℕ} (hr : Nearest rnd) {v : XF K} (hv : ∀ x, v = .fin x → -999 ≤ x ∧ x ≤ 9999) :
    (decText rnd 3 v).length ≤ 8 := by
  cases v with
  | nan => simp [decText]
  | pinf => simp [decText]
  | ninf => simp [decText]
  | fin x =>
    obtain ⟨h1, h2⟩ := hv x rfl
    have hn := hr (|x| * 10 ^ 3) (by positivity)
    set n := rnd (|x| * 10 ^ 3) with hnd
    have hn := (abs_le.1 hn).2
    have hz : (zpad 3 (natText (n % 10 ^ 3))).length = 3 := zpad_length (by norm_num) (Nat.mod_lt _ (by norm_num))
    show ((if x < 0 then ['-'] else []) ++
      (natText (n / 10 ^ 3) ++ '.' :: zpad 3 (natText (n % 10 ^ 3)))).length ≤ 8
    simp only [List.length_append, List.length_cons, hz]
    by_cases hx : x < 0
    · rw [if_pos hx]
      rw [abs_of_neg hx] at hn
      have h3 : (n : K) < 999001 := by linarith
      have h4 : n < 999001 := by exact_mod_cast h3
      have := natText_length (n := n / 10 ^ 3) (p := 3) (by norm_num) (by norm_num; omega)
      simp only [List.length_singleton]
      omega
    · rw [if_neg hx]
      rw [abs_of_nonneg (not_lt.1 hx)] at hn
      have h3 : (n : K) < 9999001 := by linarith
      have h4 : n < 9999001 := by exact_mod_cast h3
      have := natText_length (n := n / 10 ^ 3) (p := 4) (by norm_num) (by norm_num; omega)
      simp only [List.length_nil]
      omega

/-! ### C136 -/

variable {T σ W μ : Type*} {o : Ops T σ W μ (XF K)} {m : Method T σ W (XF K)} {t : Target T}

/-- **C136**. If the configured metrics are known ones other than NESS, without repetitions, the names of method and target
are words and the reported NESS is between -999 and 9999 (or infinite or not a number), then every line of the result file
can be read back: the numbers of dimensions and samples and the counters exactly, names as they are, each metric within
half of `10^-5` of the value it computed and in the column the header names, NESS and acceptance rate within half of
`10^-3`; infinite values and NaN as such. -/
theorem C136_read_back {c : Config} (hk : ∀ x ∈ c.metrics, x ∈ known) (hn : c.metrics.Nodup) {rnd : K → ℕ}
    (hr : Nearest rnd) {fuel : ℕ} {s : σ} {w : W} {row : Row (XF K)}
    (hrow : row ∈ (evaluate o c m t fuel s w).state.lines)
    (hname : Word row.report.name.toList) (ht : Word t.name.toList)
    (hness : ∀ x, row.report.ness = .fin x → -999 ≤ x ∧ x ≤ 9999) :
    ∃ (vals : List (XF K)) (fd fn fness fname ftarget facc fq fqe fpi : List Char) (fm : List (List Char)),
      (∃ ms s w, ms.map Prod.fst = c.metrics.filterMap Kind.ofConfig ∧ ComputedBy o t.obj ms s w vals) ∧
      fields (header c.metrics) =
        ["dims".toList, "output_samples".toList] ++ c.metrics.map String.toList ++ tailColumns ∧
      fields (rowText (printf rnd) row) = [fd, fn] ++ fm ++ [fness, fname, ftarget, facc, fq, fqe, fpi] ∧
      fm.length = c.metrics.length ∧
      readNat fd = some row.dims ∧ readNat fn = some row.nsamples ∧
      List.Forall₂ (fun l v => ReadsNear (1 / 2 / 10 ^ 5) l v) fm vals ∧
      ReadsNear (1 / 2 / 10 ^ 3) fness row.report.ness ∧ fname = row.report.name.toList ∧ ftarget = row.target.toList ∧
      ReadsNear (1 / 2 / 10 ^ 3) facc row.report.acceptRate ∧
      readNat fq = some row.report.numQ ∧ readNat fqe = some row.report.numQEval ∧ readNat fpi = some row.report.numPi := by
  obtain ⟨vals, h1, h2, h3, h4, -⟩ := C63_partial hk hn (printf_ok rnd) hrow hname ht (dec_short hr hness)
  refine ⟨vals, _, _, _, _, _, _, _, _, _, vals.map (decText rnd 5), h2, h3, h4, by simpa using h1, readNat_zpad _ _,
    readNat_zpad _ _, ?_, readNum_dec hr (by norm_num) _, rfl, rfl, readNum_dec hr (by norm_num) _, readNat_natText _,
    readNat_natText _, readNat_natText _⟩
  rw [List.forall₂_map_left_iff]
  exact List.forall₂_same.2 fun v _ => readNum_dec hr (by norm_num) v

/-! ### Examples -/

/-- A way to round. -/
theorem nearest_floor : Nearest (K := ℚ) fun y => ⌊y + 1 / 2⌋₊ := by
  intro y hy
  have h1 := Nat.floor_le (show (0 : ℚ) ≤ y + 1 / 2 by linarith)
  have h2 := Nat.lt_floor_add_one (y + 1 / 2)
  rw [abs_le]
  constructor <;> linarith

/-- Texts and what they read as. -/
example : decText (K := ℚ) (fun y => ⌊y + 1 / 2⌋₊) 5 (.fin (-1234567 / 100000)) = "-12.34567".toList ∧
    decText (K := ℚ) (fun y => ⌊y + 1 / 2⌋₊) 3 (.fin (1 / 15)) = "0.067".toList ∧
    readNum (K := ℚ) "-12.34567".toList = some (.fin (-1234567 / 100000)) ∧
    readNum (K := ℚ) "0.067".toList = some (.fin (67 / 1000)) := by
  have e1 : |(-1234567 / 100000 : ℚ)| * 10 ^ 5 + 1 / 2 = 2469135 / 2 := by norm_num [abs_div]
  have e2 : |(1 / 15 : ℚ)| * 10 ^ 3 + 1 / 2 = 403 / 6 := by norm_num [abs_div]
  have f1 : ⌊(2469135 / 2 : ℚ)⌋₊ = 1234567 := by rw [Nat.floor_eq_iff (by norm_num)]; norm_num
  have f2 : ⌊(403 / 6 : ℚ)⌋₊ = 67 := by rw [Nat.floor_eq_iff (by norm_num)]; norm_num
  refine ⟨?_, ?_, by decide +kernel, by decide +kernel⟩
  · simp only [decText]
    rw [e1, f1, if_pos (by norm_num)]
    simp [natText, zpad, digitChar]
  · simp only [decText]
    rw [e2, f2, if_neg (by norm_num)]
    simp [natText, zpad, digitChar]

/-- The method of `obliging_run` with extended numbers. -/
def obligingX : Method Unit ℕ ℕ (XF ℚ) where
  new _ w := (.ok 0, w)
  reset _ w := (none, 0, w)
  sample _ n _ _ w := (.ok n, n, w + 1)
  report _ := .ok ⟨.fin (2 / 3), "obliging", .nan, 5, 0, 0⟩

/-- A metric whose value is the number of calls so far over 3. -/
def countX : Ops Unit ℕ ℕ Unit (XF ℚ) where
  seed _ w := w
  new _ w := ((), w)
  reset _ _ w := ((), w)
  pre _ _ w := ((), w)
  post _ _ w := ((), w)
  compute _ _ _ s w := (.ok (.fin (w / 3)), (), s, w)

/-- An evaluation with six lines that meets the hypotheses of `C136_read_back`. -/
example : ∃ r, evaluate countX ⟨["T"], 0, 2, 5⟩ obligingX ⟨(), 1, "target", 25, 10⟩ 3 0 0 = .done r ∧
    r.lines.length = 6 ∧ (∀ x ∈ ["T"], x ∈ known) ∧ ["T"].Nodup ∧ Word "target".toList ∧
    ∀ row ∈ r.lines, Word row.report.name.toList ∧ ∀ x : ℚ, row.report.ness = .fin x → -999 ≤ x ∧ x ≤ 9999 := by
  simp [evaluate, forN, repetition, loop, iter, each, newMetrics, computeAll, obligingX, countX, finish, Kind.ofConfig,
    show ¬ (5 : ℝ) < 0 by norm_num]
  refine ⟨by decide, by unfold Word; decide, by unfold Word; decide, by norm_num⟩

end Bench
end Verif
