import Verif.Opt.PercentileModel
import Verif.Opt.ThreshProps
import Mathlib.Algebra.Order.Floor.Semifield
import Mathlib.Data.List.Sort
import Mathlib.Data.List.GetD
import Mathlib.Data.List.Count

set_option autoImplicit false

/-! # C98: thresholding at a percentile -/
namespace Verif.Opt
noncomputable section

/-! ## Lemmas -/

theorem sorted_getD {s : List ℝ} (hs : s.Pairwise (· ≤ ·)) {i j : ℕ} (hij : i ≤ j) (hj : j < s.length) :
    s.getD i 0 ≤ s.getD j 0 := by
  rw [List.getD_eq_getElem _ _ (lt_of_le_of_lt hij hj), List.getD_eq_getElem _ _ hj]
  rcases hij.lt_or_eq with h | rfl
  · exact List.pairwise_iff_getElem.1 hs i j _ _ h
  · exact le_rfl

theorem count_le {s : List ℝ} (hs : s.Pairwise (· ≤ ·)) {k : ℕ} (hk : k < s.length) {g : ℝ} (hg : s.getD k 0 ≤ g) :
    k + 1 ≤ s.countP (fun v => decide (v ≤ g)) := by
  have h1 : (s.take (k + 1)).countP (fun v => decide (v ≤ g)) = (s.take (k + 1)).length := by
    rw [List.countP_eq_length]
    intro v hv
    obtain ⟨i, hi, rfl⟩ := List.mem_iff_getElem.1 hv
    have hi' : i < k + 1 ∧ i < s.length := by simpa using hi
    rw [List.getElem_take]
    have := sorted_getD hs (show i ≤ k by omega) hk
    rw [List.getD_eq_getElem _ _ hi'.2] at this
    simpa using this.trans hg
  have h2 := (List.take_sublist (k + 1) s).countP_le (p := fun v => decide (v ≤ g))
  rw [h1, List.length_take] at h2
  omega

theorem count_ge {s : List ℝ} (hs : s.Pairwise (· ≤ ·)) {k : ℕ} (hk : k < s.length) {g : ℝ} (hg : g ≤ s.getD k 0) :
    s.length - k ≤ s.countP (fun v => decide (g ≤ v)) := by
  have h1 : (s.drop k).countP (fun v => decide (g ≤ v)) = (s.drop k).length := by
    rw [List.countP_eq_length]
    intro v hv
    obtain ⟨i, hi, rfl⟩ := List.mem_iff_getElem.1 hv
    have hi' : k + i < s.length := by rw [List.length_drop] at hi; omega
    rw [List.getElem_drop]
    have := sorted_getD hs (show k ≤ k + i by omega) hi'
    rw [List.getD_eq_getElem _ _ hi'] at this
    simpa using hg.trans this
  have h2 := (List.drop_sublist k s).countP_le (p := fun v => decide (g ≤ v))
  rw [h1, List.length_drop] at h2
  exact h2

/-! ## The property -/

/-- **C98** `percentile(a, q)` of `n ≥ 1` numbers, `0 ≤ q ≤ 100`, with `r = q/100 (n - 1)`: at least `⌊r⌋ + 1` of the numbers are at
most this value, and at least `n - ⌈r⌉` are at least this value. -/
theorem c98_percentile (a : List ℝ) (q : ℝ) (ha : a ≠ []) (h0 : 0 ≤ q) (h1 : q ≤ 100) :
    ⌊q / 100 * ((a.length : ℝ) - 1)⌋₊ + 1 ≤ a.countP (fun v => decide (v ≤ percentile a q)) ∧
    a.length - ⌈q / 100 * ((a.length : ℝ) - 1)⌉₊ ≤ a.countP (fun v => decide (percentile a q ≤ v)) := by
  set s := a.mergeSort (fun x y => decide (x ≤ y)) with hs
  set r := q / 100 * ((a.length : ℝ) - 1) with hr
  have hp : s.Perm a := List.mergeSort_perm _ _
  have hl : s.length = a.length := hp.length_eq
  have hso : s.Pairwise (· ≤ ·) := by
    have := List.pairwise_mergeSort (le := fun x y : ℝ => decide (x ≤ y)) (by simpa using fun a b c => le_trans)
      (by simpa using le_total) a
    simpa using this
  have hn : 1 ≤ a.length := List.length_pos_of_ne_nil ha
  have hn' : (1 : ℝ) ≤ a.length := by exact_mod_cast hn
  have hr0 : 0 ≤ r := by rw [hr]; apply mul_nonneg <;> [positivity; linarith]
  have hrn : r ≤ a.length - 1 := by
    rw [hr]
    have : q / 100 ≤ 1 := by linarith
    nlinarith
  have hfl : (⌊r⌋₊ : ℝ) ≤ r := Nat.floor_le hr0
  have hfl' : r - ⌊r⌋₊ < 1 := by linarith [Nat.lt_floor_add_one r]
  have hceil : ⌈r⌉₊ ≤ a.length - 1 := by
    apply Nat.ceil_le.2
    rw [Nat.cast_sub hn]
    simpa using hrn
  have hfc : ⌊r⌋₊ ≤ ⌈r⌉₊ := Nat.floor_le_ceil r
  have hmono := sorted_getD hso hfc (by rw [hl]; omega)
  have hg : percentile a q = s.getD ⌊r⌋₊ 0 * (1 - (r - ⌊r⌋₊)) + s.getD ⌈r⌉₊ 0 * (r - ⌊r⌋₊) := rfl
  have hd : 0 ≤ r - (⌊r⌋₊ : ℝ) := by linarith
  constructor
  · have := count_le hso (k := ⌊r⌋₊) (by omega) (g := percentile a q) (by rw [hg]; nlinarith)
    rwa [hp.countP_eq] at this
  · have := count_ge hso (k := ⌈r⌉₊) (by omega) (g := percentile a q) (by rw [hg]; nlinarith)
    rwa [hp.countP_eq, hl] at this

theorem percentile_ex : percentile [3, 1, 2] 25 = 1.5 := by
  have h : [(3 : ℝ), 1, 2].mergeSort (fun x y => decide (x ≤ y)) = [1, 2, 3] := by
    simp [List.mergeSort, List.MergeSort.Internal.splitInTwo, List.merge]
    norm_num
  simp only [percentile, h]
  have h1 : ⌊(25 : ℝ) / 100 * (([(3 : ℝ), 1, 2].length : ℝ) - 1)⌋₊ = 0 := by
    apply Nat.floor_eq_zero.2; norm_num
  have h2 : ⌈(25 : ℝ) / 100 * (([(3 : ℝ), 1, 2].length : ℝ) - 1)⌉₊ = 1 := by
    rw [Nat.ceil_eq_iff (by norm_num)]; norm_num
  rw [h1, h2]
  norm_num

theorem percentile_nonneg (a : List ℝ) (q : ℝ) (ha : a ≠ []) (h0 : 0 ≤ q) (h1 : q ≤ 100) (hp : ∀ v ∈ a, 0 ≤ v) :
    0 ≤ percentile a q := by
  have := (c98_percentile a q ha h0 h1).1
  have hpos : 0 < a.countP (fun v => decide (v ≤ percentile a q)) := by omega
  obtain ⟨v, hv, hle⟩ := List.countP_pos_iff.1 hpos
  exact (hp v hv).trans (by simpa using hle)

/-- **C98** hard thresholding at the percentile `g` of the magnitudes: the result has the same length, every entry of magnitude above
`g` is kept, every other entry is set to 0, and at least `⌊perc/100 (n-1)⌋ + 1` entries are set to 0. -/
theorem c98_hard (x : List ℂ) (perc : ℝ) (hx : x ≠ []) (h0 : 0 ≤ perc) (h1 : perc ≤ 100) :
    hardThresholdPercentile x perc = x.map (fun z => if percentile (x.map fun z => ‖z‖) perc < ‖z‖ then z else 0) ∧
    ⌊perc / 100 * ((x.length : ℝ) - 1)⌋₊ + 1 ≤ (hardThresholdPercentile x perc).countP (fun z => z = 0) := by
  have hne : (x.map fun z => ‖z‖) ≠ [] := by simpa using hx
  have hg := percentile_nonneg _ perc hne h0 h1 (by simp)
  have e : hardThresholdPercentile x perc =
      x.map (fun z => if percentile (x.map fun z => ‖z‖) perc < ‖z‖ then z else 0) := by
    unfold hardThresholdPercentile
    apply List.map_congr_left
    intro z _
    have hs := (c36_hard z 0 le_rfl).2.2.2 _ hg
    simp only [hardThreshold, hs, gt_iff_lt]
  refine ⟨e, ?_⟩
  have hc := (c98_percentile _ perc hne h0 h1).1
  rw [List.length_map] at hc
  refine hc.trans ?_
  rw [e, List.countP_map, List.countP_map]
  apply List.countP_mono_left
  intro z _ hz
  have hz : ‖z‖ ≤ percentile (x.map fun z => ‖z‖) perc := by simpa using hz
  simp [not_lt.2 hz]

/-- The lower quartile of the magnitudes of `[3, -1, 2]` is 1.5: one entry is removed. -/
example : hardThresholdPercentile [3, -1, 2] 25 = [3, 0, 2] := by
  rw [(c98_hard [3, -1, 2] 25 (by simp) (by norm_num) (by norm_num)).1]
  have : ([3, -1, 2] : List ℂ).map (fun z => ‖z‖) = [3, 1, 2] := by simp
  rw [this, percentile_ex]
  norm_num

/-- **C98** soft thresholding at the percentile `g` of the magnitudes, real and complex: entries of magnitude at most `g` become 0,
the others lose `g` of their magnitude and keep their sign (complex: direction); at least `⌊perc/100 (n-1)⌋ + 1` entries are set to 0. -/
theorem c98_soft (x : List ℝ) (y : List ℂ) (perc : ℝ) (hx : x ≠ []) (hy : y ≠ []) (h0 : 0 ≤ perc) (h1 : perc ≤ 100) :
    (softThresholdPercentile x perc = x.map (fun z => if |z| ≤ percentile (x.map fun z => |z|) perc then 0 else
        SignType.sign z * (|z| - percentile (x.map fun z => |z|) perc)) ∧
      ⌊perc / 100 * ((x.length : ℝ) - 1)⌋₊ + 1 ≤ (softThresholdPercentile x perc).countP (fun z => z = 0)) ∧
    (softThresholdPercentileC y perc = y.map (fun z => if ‖z‖ ≤ percentile (y.map fun z => ‖z‖) perc then 0 else
        (((‖z‖ - percentile (y.map fun z => ‖z‖) perc) / ‖z‖ : ℝ) : ℂ) * z) ∧
      ⌊perc / 100 * ((y.length : ℝ) - 1)⌋₊ + 1 ≤ (softThresholdPercentileC y perc).countP (fun z => z = 0)) := by
  constructor
  · have hne : (x.map fun z => |z|) ≠ [] := by simpa using hx
    have hg := percentile_nonneg _ perc hne h0 h1 (by simp)
    have e : softThresholdPercentile x perc = x.map (fun z => if |z| ≤ percentile (x.map fun z => |z|) perc then 0 else
        SignType.sign z * (|z| - percentile (x.map fun z => |z|) perc)) := by
      unfold softThresholdPercentile
      apply List.map_congr_left
      intro z _
      generalize percentile (x.map fun z => |z|) perc = g at hg
      unfold softThreshold
      rcases lt_trichotomy z 0 with h | rfl | h
      · rw [abs_of_neg h, sign_neg h]
        split_ifs with c
        · rw [max_eq_left (by linarith), min_eq_left (by linarith), add_zero]
        · rw [max_eq_left (by linarith), min_eq_right (by linarith)]; simp; ring
      · simp [hg]
      · rw [abs_of_pos h, sign_pos h]
        split_ifs with c
        · rw [max_eq_left (by linarith), min_eq_left (by linarith), add_zero]
        · rw [max_eq_right (by linarith), min_eq_left (by linarith)]; simp
    refine ⟨e, ?_⟩
    have hc := (c98_percentile _ perc hne h0 h1).1
    rw [List.length_map] at hc
    refine hc.trans ?_
    rw [e, List.countP_map, List.countP_map]
    apply List.countP_mono_left
    intro z _ hz
    have hz : |z| ≤ percentile (x.map fun z => |z|) perc := by simpa using hz
    simp [hz]
  · have hne : (y.map fun z => ‖z‖) ≠ [] := by simpa using hy
    have hg := percentile_nonneg _ perc hne h0 h1 (by simp)
    have e : softThresholdPercentileC y perc = y.map (fun z => if ‖z‖ ≤ percentile (y.map fun z => ‖z‖) perc then 0 else
        (((‖z‖ - percentile (y.map fun z => ‖z‖) perc) / ‖z‖ : ℝ) : ℂ) * z) := by
      unfold softThresholdPercentileC
      apply List.map_congr_left
      intro z _
      generalize percentile (y.map fun z => ‖z‖) perc = g at hg
      unfold softThresholdC
      split_ifs with c
      · rw [max_eq_right (by linarith)]; simp
      · have hz : ‖z‖ ≠ 0 := by intro h; rw [h] at c; exact c hg
        rw [max_eq_left (by linarith)]
        have hp := Complex.norm_mul_exp_arg_mul_I z
        rw [mul_comm Complex.I]
        have hc : (‖z‖ : ℂ) ≠ 0 := by exact_mod_cast hz
        push_cast
        rw [div_mul_eq_mul_div, eq_div_iff hc]
        linear_combination ((‖z‖ : ℂ) - g) * hp
    refine ⟨e, ?_⟩
    have hc := (c98_percentile _ perc hne h0 h1).1
    rw [List.length_map] at hc
    refine hc.trans ?_
    rw [e, List.countP_map, List.countP_map]
    apply List.countP_mono_left
    intro z _ hz
    have hz : ‖z‖ ≤ percentile (y.map fun z => ‖z‖) perc := by simpa using hz
    simp [hz]

/-- **C98** the default threshold of `ista` and `fista` does not depend on the iteration: it soft-thresholds at the 20th percentile of
the magnitudes, so at least `⌊(n-1)/5⌋ + 1` entries become 0, each kept entry is shrunk by the same amount and keeps its sign (its
phase, for complex vectors), and no entry grows. -/
theorem c98_default (i : ℕ) (x : List ℝ) (y : List ℂ) (hx : x ≠ []) (hy : y ≠ []) :
    (defaultThreshold i x = x.map (fun z => if |z| ≤ percentile (x.map fun z => |z|) 20 then 0 else
        SignType.sign z * (|z| - percentile (x.map fun z => |z|) 20)) ∧
      (x.length - 1) / 5 + 1 ≤ (defaultThreshold i x).countP (fun z => z = 0)) ∧
    (defaultThresholdC i y = y.map (fun z => if ‖z‖ ≤ percentile (y.map fun z => ‖z‖) 20 then 0 else
        (((‖z‖ - percentile (y.map fun z => ‖z‖) 20) / ‖z‖ : ℝ) : ℂ) * z) ∧
      (y.length - 1) / 5 + 1 ≤ (defaultThresholdC i y).countP (fun z => z = 0)) := by
  obtain ⟨⟨a1, a2⟩, b1, b2⟩ := c98_soft x y 20 hx hy (by norm_num) (by norm_num)
  have fl : ∀ n : ℕ, n ≠ 0 → ⌊(20 : ℝ) / 100 * ((n : ℝ) - 1)⌋₊ = (n - 1) / 5 := by
    intro n hn
    obtain ⟨k, rfl⟩ := Nat.exists_eq_succ_of_ne_zero hn
    rw [← Nat.floor_div_eq_div (K := ℝ)]
    congr 1
    push_cast [Nat.succ_eq_add_one, Nat.add_sub_cancel]
    ring
  rw [fl _ (by simpa using hx)] at a2
  rw [fl _ (by simpa using hy)] at b2
  exact ⟨⟨a1, a2⟩, b1, b2⟩

/-- **C98** (part) half thresholding at a *positive* percentile `g` of the magnitudes: no entry is NaN, entries of magnitude below `g`
become 0, the others keep their sign and between two thirds and all of their magnitude. -/
theorem c98_half_partial (x : List ℝ) (perc : ℝ) (hg : 0 < percentile (x.map fun z => |z|) perc) :
    ∃ f : ℝ → ℝ, halfThresholdPercentile x perc = x.map (fun z => some (f z)) ∧
      ∀ z, (|z| < percentile (x.map fun z => |z|) perc → f z = 0) ∧
        (percentile (x.map fun z => |z|) perc ≤ |z| → 0 < f z * z ∧ 2 / 3 * |z| ≤ |f z| ∧ |f z| ≤ |z|) := by
  have htau : 0 < gammaToTauHalf (percentile (x.map fun z => |z|) perc) := by unfold gammaToTauHalf; positivity
  have hgam : halfGamma (gammaToTauHalf (percentile (x.map fun z => |z|) perc)) = percentile (x.map fun z => |z|) perc :=
    (c36_half 0 1 one_pos).2.2.2 _ hg.le
  refine ⟨fun z => halfThreshold z (gammaToTauHalf (percentile (x.map fun z => |z|) perc)), ?_, fun z => ⟨fun h => ?_, fun h => ?_⟩⟩
  · unfold halfThresholdPercentile
    apply List.map_congr_left
    intro z _
    simp only [halfThresholdN, hgam]
    by_cases h : |z| ≥ percentile (x.map fun z => |z|) perc
    · have hz : z ≠ 0 := by rintro rfl; rw [abs_zero] at h; linarith
      rw [if_pos h, if_neg hz]
    · rw [if_neg h, (c36_half z _ htau).1 (by rw [hgam]; exact not_le.1 h)]
  · exact (c36_half z _ htau).1 (by rw [hgam]; exact h)
  · exact (c36_half z _ htau).2.1 (by rw [hgam]; exact h)

example : ∃ f : ℝ → ℝ, halfThresholdPercentile [3, -1, 2] 25 = [some (f 3), some 0, some (f 2)] ∧ 2 ≤ |f 3| := by
  have e : ([3, -1, 2] : List ℝ).map (fun z => |z|) = [3, 1, 2] := by simp
  obtain ⟨f, h1, h2⟩ := c98_half_partial [3, -1, 2] 25 (by rw [e, percentile_ex]; norm_num)
  rw [e, percentile_ex] at h2
  refine ⟨f, ?_, ?_⟩
  · rw [h1]; simp [(h2 (-1)).1 (by norm_num)]
  · have := ((h2 3).2 (by norm_num)).2.1
    norm_num at this
    exact this

/-- **C98** (refutation) when the percentile is 0 — at least the fraction `perc` of the entries is zero — every zero entry of the
result of half thresholding is NaN. -/
theorem c98_half_fails (x : List ℝ) (perc : ℝ) (hg : percentile (x.map fun z => |z|) perc = 0) (h0 : (0 : ℝ) ∈ x) :
    none ∈ halfThresholdPercentile x perc := by
  unfold halfThresholdPercentile
  rw [List.mem_map]
  refine ⟨0, h0, ?_⟩
  simp only [hg]
  have : halfGamma (gammaToTauHalf 0) = 0 := (c36_half 0 1 one_pos).2.2.2 0 le_rfl
  simp [halfThresholdN, this]

/-- The median of `[0, 0, 1]` is 0. -/
example : none ∈ halfThresholdPercentile [0, 0, 1] 50 := by
  apply c98_half_fails _ _ _ (by simp)
  have h : [(0 : ℝ), 0, 1].mergeSort (fun x y => decide (x ≤ y)) = [0, 0, 1] := by
    simp [List.mergeSort, List.MergeSort.Internal.splitInTwo, List.merge]
  have e : ([0, 0, 1] : List ℝ).map (fun z => |z|) = [0, 0, 1] := by simp
  rw [e]
  simp only [percentile, h]
  have h1 : (50 : ℝ) / 100 * (([(0 : ℝ), 0, 1].length : ℝ) - 1) = (1 : ℕ) := by norm_num
  rw [h1, Nat.floor_natCast, Nat.ceil_natCast]
  norm_num

example := c98_percentile [3, 1, 2] 25 (by simp) (by norm_num) (by norm_num)
example := c98_soft [3, -1, 2] [3, 4 * Complex.I] 25 (by simp) (by simp) (by norm_num) (by norm_num)
example := c98_default 7 [3, -1, 2, 0, 5, 6] [3, 4 * Complex.I] (by simp) (by simp)

end
end Verif.Opt
