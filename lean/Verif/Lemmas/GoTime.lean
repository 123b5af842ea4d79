import Verif.Spec.GoTime

/-! # Lemmas on the calendar and on patterns -/

namespace Log4g
open Spec GoTime Strconv

/-- The days before a year. -/
def yearStart (y : Int) : Int := 365 * (y - 1) + (y - 1) / 4 - (y - 1) / 100 + (y - 1) / 400

theorem isLeap_iff (y : Int) : isLeap y = true ↔ LeapYear y := by
  simp only [isLeap, LeapYear, decide_eq_true_eq, Int.dvd_iff_emod_eq_zero]
  omega

theorem yearStart_succ (y : Int) : yearStart (y + 1) = yearStart y + (if LeapYear y then 366 else 365) := by
  by_cases h : LeapYear y
  · rw [if_pos h]
    simp only [LeapYear, Int.dvd_iff_emod_eq_zero] at h
    unfold yearStart
    omega
  · rw [if_neg h]
    simp only [LeapYear, Int.dvd_iff_emod_eq_zero] at h
    unfold yearStart
    omega

theorem yearStart_mono {y y' : Int} (h : y < y') : yearStart y + (if LeapYear y then 366 else 365) ≤ yearStart y' := by
  rw [← yearStart_succ]
  unfold yearStart
  omega

theorem cycles {b q f g : Int} (hq : 0 ≤ q ∧ q ≤ 3) (hf : 0 ≤ f ∧ f ≤ 24) (hg : 0 ≤ g ∧ g ≤ 3) :
    yearStart (400 * b + 100 * q + 4 * f + g + 1) = 146097 * b + 36524 * q + 1461 * f + 365 * g := by
  have h1 : (400 * b + 100 * q + 4 * f + g + 1 - 1) / 4 = 100 * b + 25 * q + f := by omega
  have h2 : (400 * b + 100 * q + 4 * f + g + 1 - 1) / 100 = 4 * b + q := by omega
  have h3 : (400 * b + 100 * q + 4 * f + g + 1 - 1) / 400 = b := by omega
  unfold yearStart
  rw [h1, h2, h3]
  omega

theorem yearOf_spec (d : Int) : yearStart (yearOf d).1 + (yearOf d).2 = d ∧ 0 ≤ (yearOf d).2 ∧ (yearOf d).2 < (if LeapYear (yearOf d).1 then 366 else 365) := by
  obtain ⟨b, hb⟩ : ∃ b, d / 146097 = b := ⟨_, rfl⟩
  obtain ⟨r, hr⟩ : ∃ r, d - 146097 * b = r := ⟨_, rfl⟩
  obtain ⟨c, hc⟩ : ∃ c, r / 36524 = c := ⟨_, rfl⟩
  obtain ⟨q, hq⟩ : ∃ q, c - c / 4 = q := ⟨_, rfl⟩
  obtain ⟨r2, hr2⟩ : ∃ r2, r - 36524 * q = r2 := ⟨_, rfl⟩
  obtain ⟨f, hf⟩ : ∃ f, r2 / 1461 = f := ⟨_, rfl⟩
  obtain ⟨r3, hr3⟩ : ∃ r3, r2 - 1461 * f = r3 := ⟨_, rfl⟩
  obtain ⟨e, he⟩ : ∃ e, r3 / 365 = e := ⟨_, rfl⟩
  obtain ⟨g, hg⟩ : ∃ g, e - e / 4 = g := ⟨_, rfl⟩
  have hy : yearOf d = (400 * b + 100 * q + 4 * f + g + 1, r3 - 365 * g) := by
    simp only [yearOf, hb, hr, hc, hq, hr2, hf, hr3, he, hg]
  have r0 : 0 ≤ r ∧ r ≤ 146096 := by omega
  have c0 : 0 ≤ c ∧ c ≤ 4 := by omega
  have q0 : 0 ≤ q ∧ q ≤ 3 ∧ (q < 3 → c = q) := by omega
  have r20 : 0 ≤ r2 ∧ r2 ≤ 36524 ∧ (q < 3 → r2 < 36524) := by omega
  have f0 : 0 ≤ f ∧ f ≤ 24 := by omega
  have r30 : 0 ≤ r3 ∧ r3 ≤ 1460 := by omega
  have e0 : 0 ≤ e ∧ e ≤ 4 := by omega
  have g0 : 0 ≤ g ∧ g ≤ 3 ∧ (g < 3 → e = g) := by omega
  rw [hy]
  simp only
  rw [cycles ⟨q0.1, q0.2.1⟩ f0 ⟨g0.1, g0.2.1⟩]
  refine ⟨by omega, by omega, ?_⟩
  by_cases h : LeapYear (400 * b + 100 * q + 4 * f + g + 1)
  · rw [if_pos h]; omega
  · rw [if_neg h]
    simp only [LeapYear, Int.dvd_iff_emod_eq_zero] at h
    have hg3 : r3 - 365 * g = 365 → g = 3 ∧ r3 = 1460 := by omega
    have hlast : r3 = 1460 ∧ f = 24 → q = 3 := by omega
    by_cases h365 : r3 - 365 * g = 365
    · obtain ⟨rfl, h2⟩ := hg3 h365
      exfalso
      apply h
      by_cases hf24 : f = 24
      · have := hlast ⟨h2, hf24⟩
        right; omega
      · left; omega
    · omega

theorem monthLengths_sum (y : Int) {m : Nat} (h1 : 1 ≤ m) (h2 : m ≤ 12) :
    ((monthLengths y).take (m - 1)).foldr (· + ·) 0 = daysBefore (m - 1) + (if LeapYear y ∧ 3 ≤ m then 1 else 0) := by
  have : m = 1 ∨ m = 2 ∨ m = 3 ∨ m = 4 ∨ m = 5 ∨ m = 6 ∨ m = 7 ∨ m = 8 ∨ m = 9 ∨ m = 10 ∨ m = 11 ∨ m = 12 := by omega
  by_cases hl : LeapYear y <;>
    rcases this with rfl | rfl | rfl | rfl | rfl | rfl | rfl | rfl | rfl | rfl | rfl | rfl <;> simp [monthLengths, hl, daysBefore]

theorem monthLengths_get (y : Int) {m : Nat} (h1 : 1 ≤ m) (h2 : m ≤ 12) :
    (monthLengths y)[m - 1]? = some (daysIn m y) := by
  have : m = 1 ∨ m = 2 ∨ m = 3 ∨ m = 4 ∨ m = 5 ∨ m = 6 ∨ m = 7 ∨ m = 8 ∨ m = 9 ∨ m = 10 ∨ m = 11 ∨ m = 12 := by omega
  have hl := isLeap_iff y
  by_cases h : LeapYear y
  · have h' := hl.mpr h
    rcases this with rfl | rfl | rfl | rfl | rfl | rfl | rfl | rfl | rfl | rfl | rfl | rfl <;> simp [monthLengths, h, h', daysIn, daysBefore]
  · have h' : isLeap y = false := by
      cases hx : isLeap y
      · rfl
      · exact absurd (hl.mp hx) h
    rcases this with rfl | rfl | rfl | rfl | rfl | rfl | rfl | rfl | rfl | rfl | rfl | rfl <;> simp [monthLengths, h, h', daysIn, daysBefore]

theorem dayNumber_eq (y : Int) {m : Nat} (d : Nat) (h1 : 1 ≤ m) (h2 : m ≤ 12) :
    dayNumber y m d = yearStart y + daysBefore (m - 1) + (if LeapYear y ∧ 3 ≤ m then 1 else 0) + d - 1 := by
  unfold dayNumber
  rw [monthLengths_sum y h1 h2]
  unfold yearStart
  omega

theorem dayOf_eq (y : Int) {m : Nat} (d : Nat) (h1 : 1 ≤ m) (h2 : m ≤ 12) : dayOf y m d = dayNumber y m d := by
  rw [dayNumber_eq y d h1 h2]
  have hl := isLeap_iff y
  have hy : 146097 * ((y - 1) / 400) + 36524 * ((y - 1 - 400 * ((y - 1) / 400)) / 100) +
      1461 * ((y - 1 - 400 * ((y - 1) / 400) - 100 * ((y - 1 - 400 * ((y - 1) / 400)) / 100)) / 4) +
      365 * (y - 1 - 400 * ((y - 1) / 400) - 100 * ((y - 1 - 400 * ((y - 1) / 400)) / 100) -
        4 * ((y - 1 - 400 * ((y - 1) / 400) - 100 * ((y - 1 - 400 * ((y - 1) / 400)) / 100)) / 4)) = yearStart y := by
    obtain ⟨b, hb⟩ : ∃ b, (y - 1) / 400 = b := ⟨_, rfl⟩
    obtain ⟨r, hr⟩ : ∃ r, y - 1 - 400 * b = r := ⟨_, rfl⟩
    obtain ⟨q, hq⟩ : ∃ q, r / 100 = q := ⟨_, rfl⟩
    obtain ⟨r2, hr2⟩ : ∃ r2, r - 100 * q = r2 := ⟨_, rfl⟩
    obtain ⟨f, hf⟩ : ∃ f, r2 / 4 = f := ⟨_, rfl⟩
    obtain ⟨g, hg⟩ : ∃ g, r2 - 4 * f = g := ⟨_, rfl⟩
    simp only [hb, hr, hq, hr2, hf, hg]
    rw [← cycles (b := b) (q := q) (f := f) (g := g) (by omega) (by omega) (by omega)]
    congr 1
    omega
  unfold dayOf
  simp only [hy]
  by_cases h : LeapYear y
  · simp only [hl.mpr h, h, true_and]
    split <;> omega
  · have h' : isLeap y = false := by
      cases hx : isLeap y
      · rfl
      · exact absurd (hl.mp hx) h
    simp only [h', h, false_and, if_false, Bool.false_eq_true]
    omega

theorem daysBefore_month {m : Nat} (h : m ≤ 11) : daysBefore m ≤ 31 * m ∧ 31 * m < daysBefore (m + 1) + 3 + 31 ∧ daysBefore m < daysBefore (m + 1) ∧
    31 * (m + 1) ≤ daysBefore (m + 1) + 8 ∧ (m ≤ 10 → 31 * (m + 1) ≤ daysBefore (m + 2)) := by
  have : m = 0 ∨ m = 1 ∨ m = 2 ∨ m = 3 ∨ m = 4 ∨ m = 5 ∨ m = 6 ∨ m = 7 ∨ m = 8 ∨ m = 9 ∨ m = 10 ∨ m = 11 := by omega
  rcases this with rfl | rfl | rfl | rfl | rfl | rfl | rfl | rfl | rfl | rfl | rfl | rfl <;> simp [daysBefore]

theorem monthDay_plain {day : Int} (h0 : 0 ≤ day) (h1 : day < 365) {m d : Nat}
    (hmd : (if daysBefore ((day / 31).toNat + 1) ≤ day then ((day / 31).toNat + 2, (day - daysBefore ((day / 31).toNat + 1) + 1).toNat)
      else ((day / 31).toNat + 1, (day - daysBefore (day / 31).toNat + 1).toNat)) = (m, d)) :
    1 ≤ m ∧ m ≤ 12 ∧ 1 ≤ d ∧ daysBefore (m - 1) + d - 1 = day ∧ day < daysBefore m := by
  obtain ⟨k, hk⟩ : ∃ k, (day / 31).toNat = k := ⟨_, rfl⟩
  have hk11 : k ≤ 11 := by omega
  obtain ⟨a, b, c, e, g⟩ := daysBefore_month hk11
  have hk' : 31 * (k : Int) ≤ day ∧ day < 31 * (k + 1) := by omega
  rw [hk] at hmd
  split at hmd
  · rename_i h
    simp only [Prod.mk.injEq] at hmd
    obtain ⟨rfl, rfl⟩ := hmd
    have hk10 : k ≤ 10 := by
      apply Classical.byContradiction
      intro hn
      have : k = 11 := by omega
      subst this
      simp [daysBefore] at h
      omega
    have := g hk10
    simp only [show k + 2 - 1 = k + 1 by omega]
    omega
  · rename_i h
    simp only [Prod.mk.injEq] at hmd
    obtain ⟨rfl, rfl⟩ := hmd
    simp only [show k + 1 - 1 = k by omega]
    omega

theorem monthDay_spec {y yday : Int} (h0 : 0 ≤ yday) (h1 : yday < (if LeapYear y then 366 else 365)) {m d : Nat} (h : monthDay (isLeap y) yday = (m, d)) :
    1 ≤ m ∧ m ≤ 12 ∧ 1 ≤ d ∧ (d : Int) ≤ daysIn m y ∧ daysBefore (m - 1) + (if LeapYear y ∧ 3 ≤ m then 1 else 0) + d - 1 = yday := by
  have hl := isLeap_iff y
  by_cases hy : LeapYear y
  · have hy' := hl.mpr hy
    rw [if_pos hy] at h1
    unfold monthDay at h
    simp only [hy', true_and] at h
    split at h
    · rename_i h59
      simp only [Prod.mk.injEq] at h
      obtain ⟨rfl, rfl⟩ := h
      simp [daysIn, hy', daysBefore, h59]
    · rename_i hn
      by_cases h59 : 59 < yday
      · rw [if_pos h59] at h
        obtain ⟨a, b, c, e, g⟩ := monthDay_plain (by omega) (by omega) h
        have h3 : 3 ≤ m := by
          apply Classical.byContradiction
          intro hm
          have : m = 1 ∨ m = 2 := by omega
          rcases this with rfl | rfl <;> simp [daysBefore] at g <;> omega
        refine ⟨a, b, c, ?_, ?_⟩
        · unfold daysIn
          rw [if_neg (by omega)]
          omega
        · rw [if_pos ⟨hy, h3⟩]; omega
      · rw [if_neg h59] at h
        obtain ⟨a, b, c, e, g⟩ := monthDay_plain (by omega) (by omega) h
        have h3 : ¬ 3 ≤ m := by
          intro hm
          have : 59 ≤ daysBefore (m - 1) := by
            have : m = 3 ∨ m = 4 ∨ m = 5 ∨ m = 6 ∨ m = 7 ∨ m = 8 ∨ m = 9 ∨ m = 10 ∨ m = 11 ∨ m = 12 := by omega
            rcases this with rfl | rfl | rfl | rfl | rfl | rfl | rfl | rfl | rfl | rfl <;> simp [daysBefore]
          omega
        refine ⟨a, b, c, ?_, ?_⟩
        · have : m = 1 ∨ m = 2 := by omega
          rcases this with rfl | rfl <;> simp [daysIn, daysBefore, hy'] at * <;> omega
        · rw [if_neg (by omega)]; omega
  · have hy' : isLeap y = false := by
      cases hx : isLeap y
      · rfl
      · exact absurd (hl.mp hx) hy
    rw [if_neg hy] at h1
    unfold monthDay at h
    simp only [hy', false_and, if_false, Bool.false_eq_true] at h
    obtain ⟨a, b, c, e, g⟩ := monthDay_plain h0 h1 h
    refine ⟨a, b, c, ?_, ?_⟩
    · unfold daysIn
      simp only [hy', Bool.false_eq_true, and_false, if_false]
      omega
    · rw [if_neg (fun h => hy h.1)]; omega

/-- The date and the clock are there, and are those of the instant. -/
theorem civil_spec (abs : Int) : Exists (civil abs) ∧ secondsTo (civil abs) = abs := by
  obtain ⟨y, yday, hy⟩ : ∃ y yday, yearOf (abs / 86400) = (y, yday) := ⟨_, _, rfl⟩
  obtain ⟨m, d, hmd⟩ : ∃ m d, monthDay (isLeap y) yday = (m, d) := ⟨_, _, rfl⟩
  have h := yearOf_spec (abs / 86400)
  rw [hy] at h
  simp only at h
  obtain ⟨h1, h2, h3⟩ := h
  obtain ⟨a, b, c, e, g⟩ := monthDay_spec h2 h3 hmd
  have hc : civil abs = ⟨y, m, d, (abs % 86400).toNat / 3600, (abs % 86400).toNat % 3600 / 60, (abs % 86400).toNat % 60⟩ := by
    simp only [civil, hy, hmd]
  rw [hc]
  refine ⟨⟨a, b, c, ⟨_, monthLengths_get y a b, e⟩, by simp only; omega, by simp only; omega, by simp only; omega⟩, ?_⟩
  simp only [secondsTo]
  rw [dayNumber_eq y d a b]
  have : yearStart y + daysBefore (m - 1) + (if LeapYear y ∧ 3 ≤ m then 1 else 0) + d - 1 = abs / 86400 := by omega
  rw [this]
  omega

/-- Earlier in the order of year, month, day, hour, minute, second. -/
def CivilBefore (c c' : Civil) : Prop :=
  c.year < c'.year ∨ c.year = c'.year ∧ (c.month < c'.month ∨ c.month = c'.month ∧ (c.day < c'.day ∨ c.day = c'.day ∧
    (c.hour < c'.hour ∨ c.hour = c'.hour ∧ (c.minute < c'.minute ∨ c.minute = c'.minute ∧ c.second < c'.second))))

theorem before_or (c c' : Civil) : CivilBefore c c' ∨ c = c' ∨ CivilBefore c' c := by
  obtain ⟨y, m, d, h, mi, s⟩ := c
  obtain ⟨y', m', d', h', mi', s'⟩ := c'
  simp only [CivilBefore, Civil.mk.injEq]
  omega

theorem daysIn_next (y : Int) {m m' : Nat} (h1 : 1 ≤ m) (h : m < m') (h2 : m' ≤ 12) :
    daysBefore (m - 1) + (if LeapYear y ∧ 3 ≤ m then 1 else 0) + daysIn m y ≤ daysBefore (m' - 1) + (if LeapYear y ∧ 3 ≤ m' then 1 else 0) := by
  have hl := isLeap_iff y
  have step : ∀ k, 1 ≤ k → k ≤ 11 → daysBefore (k - 1) + (if LeapYear y ∧ 3 ≤ k then 1 else 0) + daysIn k y = daysBefore (k + 1 - 1) + (if LeapYear y ∧ 3 ≤ k + 1 then 1 else 0) ∧ 0 ≤ daysIn k y := by
    intro k a b
    have : k = 1 ∨ k = 2 ∨ k = 3 ∨ k = 4 ∨ k = 5 ∨ k = 6 ∨ k = 7 ∨ k = 8 ∨ k = 9 ∨ k = 10 ∨ k = 11 := by omega
    by_cases hy : LeapYear y
    · have hy' := hl.mpr hy
      rcases this with rfl | rfl | rfl | rfl | rfl | rfl | rfl | rfl | rfl | rfl | rfl <;> simp [daysIn, daysBefore, hy, hy']
    · have hy' : isLeap y = false := by
        cases hx : isLeap y
        · rfl
        · exact absurd (hl.mp hx) hy
      rcases this with rfl | rfl | rfl | rfl | rfl | rfl | rfl | rfl | rfl | rfl | rfl <;> simp [daysIn, daysBefore, hy, hy']
  obtain ⟨j, rfl⟩ : ∃ j, m' = m + 1 + j := ⟨m' - (m + 1), by omega⟩
  clear h
  induction j with
  | zero => exact Int.le_of_eq (step m h1 (by omega)).1
  | succ j ih =>
    have := ih (by omega)
    have h' := step (m + 1 + j) (by omega) (by omega)
    have e : m + 1 + (j + 1) = m + 1 + j + 1 := by omega
    rw [e, ← h'.1]
    omega

theorem yearEnd (y : Int) {m : Nat} (h1 : 1 ≤ m) (h2 : m ≤ 12) :
    daysBefore (m - 1) + (if LeapYear y ∧ 3 ≤ m then 1 else 0) + daysIn m y ≤ (if LeapYear y then 366 else 365) := by
  have hl := isLeap_iff y
  have h12 : daysBefore (12 - 1) + (if LeapYear y ∧ 3 ≤ 12 then 1 else 0) + daysIn 12 y = (if LeapYear y then 366 else 365) := by
    by_cases hy : LeapYear y <;> simp [daysIn, daysBefore, hy]
  by_cases h : m = 12
  · subst h; exact Int.le_of_eq h12
  · have := daysIn_next y h1 (show m < 12 by omega) (by omega)
    have : 0 ≤ daysIn 12 y := by simp [daysIn, daysBefore]
    omega

/-- The order of dates is that of time. -/
theorem before_lt {c c' : Civil} (hc : Exists c) (hc' : Exists c') (h : CivilBefore c c') : secondsTo c < secondsTo c' := by
  obtain ⟨a, b, d0, ⟨len, hlen, hd⟩, e, f, g⟩ := hc
  obtain ⟨a', b', d0', ⟨len', hlen', hd'⟩, e', f', g'⟩ := hc'
  rw [monthLengths_get c.year a b] at hlen
  rw [monthLengths_get c'.year a' b'] at hlen'
  cases hlen
  cases hlen'
  unfold secondsTo
  rw [dayNumber_eq c.year c.day a b, dayNumber_eq c'.year c'.day a' b']
  have h12 := yearEnd c.year a b
  have h12' := yearEnd c'.year a' b'
  have hz : 0 ≤ daysBefore (c'.month - 1) + (if LeapYear c'.year ∧ 3 ≤ c'.month then 1 else 0) := by
    have : 0 ≤ daysBefore (c'.month - 1) := by unfold daysBefore; split <;> decide
    split <;> omega
  rcases h with h | ⟨hy, h⟩
  · have := yearStart_mono h
    omega
  · rw [← hy]
    rw [← hy] at hz h12'
    rcases h with h | ⟨hm, h⟩
    · have := daysIn_next c.year a h b'
      omega
    · rw [← hm]
      omega

theorem secondsTo_inj {c c' : Civil} (hc : Exists c) (hc' : Exists c') (h : secondsTo c = secondsTo c') : c = c' := by
  rcases before_or c c' with h' | h' | h'
  · have := before_lt hc hc' h'; omega
  · exact h'
  · have := before_lt hc' hc h'; omega

theorem civil_secondsTo {c : Civil} (hc : Exists c) : civil (secondsTo c) = c :=
  secondsTo_inj (civil_spec _).1 hc (civil_spec _).2

/-! ## Patterns -/

theorem daysIn_le (y : Int) {m : Nat} (h1 : 1 ≤ m) (h2 : m ≤ 12) : daysIn m y ≤ 31 := by
  have hm : m = 1 ∨ m = 2 ∨ m = 3 ∨ m = 4 ∨ m = 5 ∨ m = 6 ∨ m = 7 ∨ m = 8 ∨ m = 9 ∨ m = 10 ∨ m = 11 ∨ m = 12 := by omega
  unfold daysIn
  split
  · decide
  · rcases hm with h | h | h | h | h | h | h | h | h | h | h | h <;> rw [h] <;> decide

theorem ten_cases {n : Nat} (h : n < 10) : n = 0 ∨ n = 1 ∨ n = 2 ∨ n = 3 ∨ n = 4 ∨ n = 5 ∨ n = 6 ∨ n = 7 ∨ n = 8 ∨ n = 9 := by omega

theorem digit_digitChar {n : Nat} (h : n < 10) : digit (digitChar n) = some n ∧ digitChar n ≠ ' ' ∧ digitChar n ≠ '.' := by
  rcases ten_cases h with rfl | rfl | rfl | rfl | rfl | rfl | rfl | rfl | rfl | rfl <;> decide

theorem natDigits_small {n : Nat} (h : n < 10) : natDigits n = [digitChar n] := by
  rw [natDigits, if_pos h]

theorem natDigits_big {n : Nat} (h : ¬ n < 10) : natDigits n = natDigits (n / 10) ++ [digitChar (n % 10)] := by
  rw [natDigits, if_neg h]

theorem pad_two {n : Nat} (h : n < 100) : pad 2 n = twoDigits n := by
  unfold pad twoDigits
  rw [if_neg (by omega)]
  simp only [Int.natAbs_natCast]
  by_cases h1 : n < 10
  · rw [natDigits_small h1, show n / 10 % 10 = 0 by omega, show n % 10 = n by omega]
    rfl
  · rw [natDigits_big h1, natDigits_small (by omega), show n / 10 % 10 = n / 10 by omega]
    rfl

theorem pad_four {y : Int} (h0 : 0 ≤ y) (h : y < 10000) : pad 4 y = fourDigits y.toNat := by
  obtain ⟨n, rfl⟩ : ∃ n : Nat, y = n := ⟨y.toNat, by omega⟩
  have hn : n < 10000 := by omega
  simp only [Int.toNat_natCast, fourDigits, twoDigits]
  unfold pad
  rw [if_neg (by omega)]
  simp only [Int.natAbs_natCast]
  by_cases h1 : n < 10
  · rw [natDigits_small h1, show n / 100 / 10 % 10 = 0 by omega, show n / 100 % 10 = 0 by omega, show n / 10 % 10 = 0 by omega, show n % 10 = n by omega]
    rfl
  · rw [natDigits_big h1]
    by_cases h2 : n / 10 < 10
    · rw [natDigits_small h2, show n / 100 / 10 % 10 = 0 by omega, show n / 100 % 10 = 0 by omega, show n / 10 % 10 = n / 10 by omega]
      rfl
    · rw [natDigits_big h2]
      by_cases h3 : n / 10 / 10 < 10
      · rw [natDigits_small h3, show n / 100 / 10 % 10 = 0 by omega, show n / 100 % 10 = n / 10 / 10 by omega]
        rfl
      · rw [natDigits_big h3, natDigits_small (by omega), show n / 100 / 10 % 10 = n / 10 / 10 / 10 by omega, show n / 100 % 10 = n / 10 / 10 % 10 by omega]
        rfl

/-- The elements of a pattern. -/
def Spec.DatePiece.elem : DatePiece → Elem
  | .field .year => .year | .field .month => .month | .field .day => .day
  | .field .hour => .hour | .field .minute => .minute | .field .second => .second
  | .sep c => .lit c

theorem patternText_cons (p : DatePiece) (ps : List DatePiece) : patternText (p :: ps) = p.text ++ patternText ps := by
  simp [patternText]

theorem nameAt_cons (c : Civil) (p : DatePiece) (ps : List DatePiece) : nameAt (p :: ps) c = p.at c ++ nameAt ps c := by
  simp [nameAt]

theorem pattern_head {ps : List DatePiece} (hs : ∀ c, .sep c ∈ ps → c ∉ c!"0123456789/JMPp") : (patternText ps).head? ≠ some '9' := by
  cases ps with
  | nil => simp [patternText]
  | cons p ps =>
    rw [patternText_cons]
    rcases p with (_ | _ | _ | _ | _ | _) | c
    · simp [DatePiece.text]
    · simp [DatePiece.text]
    · simp [DatePiece.text]
    · simp [DatePiece.text]
    · simp [DatePiece.text]
    · simp [DatePiece.text]
    · have := hs c (by simp)
      simp only [DatePiece.text, List.cons_append, List.head?_cons, ne_eq, Option.some.injEq]
      rintro rfl
      exact this (by decide)

theorem scan_pattern (ps : List DatePiece) (hs : ∀ c, .sep c ∈ ps → c ∉ c!"0123456789/JMPp") : scan (patternText ps) = some (ps.map Spec.DatePiece.elem) := by
  induction ps with
  | nil => rfl
  | cons p ps ih =>
    have ih := ih fun c hc => hs c (by simp [hc])
    have hh := pattern_head (ps := ps) fun c hc => hs c (by simp [hc])
    rw [patternText_cons]
    rcases p with (_ | _ | _ | _ | _ | _) | c
    · simp [DatePiece.text, scan, ih, Spec.DatePiece.elem]
    · simp [DatePiece.text, scan, ih, Spec.DatePiece.elem]
    · simp [DatePiece.text, scan, ih, Spec.DatePiece.elem]
    · simp [DatePiece.text, scan, ih, Spec.DatePiece.elem]
    · simp [DatePiece.text, scan, ih, Spec.DatePiece.elem]
    · simp [DatePiece.text, scan, ih, Spec.DatePiece.elem]
    · have hc := hs c (by simp)
      simp only [DatePiece.text, List.cons_append, List.nil_append]
      have hne : ∀ x, x ∈ c!"0123456789/JMPp" → c ≠ x := by rintro x hx rfl; exact hc hx
      rw [scan.eq_def]
      simp only
      split
      · exact absurd rfl (hne _ (by decide))
      · exact absurd rfl (hne _ (by decide))
      · exact absurd rfl (hne _ (by decide))
      · exact absurd rfl (hne _ (by decide))
      · exact absurd rfl (hne _ (by decide))
      · exact absurd rfl (hne _ (by decide))
      rw [if_neg, ih]
      · rfl
      · rintro (h | ⟨_, h⟩)
        · apply hc
          revert h
          simp only [List.mem_cons, List.not_mem_nil, or_false]
          rintro (h | h | h | h | h | h | h | h | h | h) <;> simp [h]
        · exact hh h

theorem getnum_two {n : Nat} (h : n < 100) (fixed : Bool) (rest : Str) : getnum fixed (twoDigits n ++ rest) = some (n, rest) := by
  simp only [twoDigits, List.cons_append, List.nil_append, getnum]
  rw [(digit_digitChar (show n / 10 % 10 < 10 by omega)).1]
  simp only []
  rw [(digit_digitChar (show n % 10 < 10 by omega)).1]
  simp only [Option.some.injEq, Prod.mk.injEq, and_true]
  omega

/-- The fields that pieces of a pattern set. -/
def setPiece (c : Civil) (b : Civil) : DatePiece → Civil
  | .field .year => { b with year := c.year } | .field .month => { b with month := c.month } | .field .day => { b with day := c.day }
  | .field .hour => { b with hour := c.hour } | .field .minute => { b with minute := c.minute } | .field .second => { b with second := c.second }
  | .sep _ => b

theorem two_head (n : Nat) (rest : Str) : ∃ a b, twoDigits n ++ rest = a :: b :: rest ∧ a ≠ ' ' ∧ a ≠ '.' :=
  ⟨_, _, rfl, (digit_digitChar (show n / 10 % 10 < 10 by omega)).2.1, (digit_digitChar (show n / 10 % 10 < 10 by omega)).2.2⟩

theorem fraction_none {s : Str} (h : s.head? ≠ some '.') : fraction s = ([], s) := by
  unfold fraction
  split
  · exact absurd rfl h
  · rfl

theorem drop_two (sp : Bool) (n : Nat) (rest : Str) : (if sp then (twoDigits n ++ rest).dropWhile (· = ' ') else twoDigits n ++ rest) = twoDigits n ++ rest := by
  obtain ⟨a, b, e, h, _⟩ := two_head n rest
  rw [e]
  cases sp
  · rfl
  · simp [h]

open scoped List in
theorem parse_name {c : Civil} (hc : Exists c) (hy : 0 ≤ c.year ∧ c.year < 10000) (ps : List DatePiece) (hs : ∀ x, .sep x ∈ ps → x ∉ c!"0123456789/JMPp")
    (hstop : ¬ [.field .second, .sep '.'] <:+: ps) (sp : Bool) (f : Read) :
    parseElems sp (ps.map Spec.DatePiece.elem) (if sp then (nameAt ps c).dropWhile (· = ' ') else nameAt ps c) f =
      some { f with civil := ps.foldl (setPiece c) f.civil } := by
  obtain ⟨hm1, hm2, hd1, ⟨len, hlen, hd2⟩, hh, hmi, hse⟩ := hc
  have hd3 : c.day < 100 := by
    rw [monthLengths_get c.year hm1 hm2] at hlen
    cases hlen
    have := daysIn_le c.year hm1 hm2
    omega
  induction ps generalizing sp f with
  | nil => cases sp <;> simp [nameAt, parseElems]
  | cons p ps ih =>
    have ih := fun sp f => ih (fun x hx => hs x (by simp [hx])) (fun h => hstop (h.trans (List.suffix_cons p ps).isInfix)) sp f
    have ih0 := fun f => ih false f
    simp only [Bool.false_eq_true, if_false] at ih0
    rw [nameAt_cons, List.map_cons, List.foldl_cons]
    rcases p with (_ | _ | _ | _ | _ | _) | x
    · simp only [DatePiece.at, fourDigits, List.append_assoc, drop_two, Spec.DatePiece.elem]
      obtain ⟨n, hn⟩ : ∃ n : Nat, c.year = n := ⟨c.year.toNat, by omega⟩
      simp only [twoDigits, List.cons_append, List.nil_append, parseElems]
      rw [(digit_digitChar (show c.year.toNat / 100 / 10 % 10 < 10 by omega)).1, (digit_digitChar (show c.year.toNat / 100 % 10 < 10 by omega)).1,
        (digit_digitChar (show c.year.toNat / 10 % 10 < 10 by omega)).1, (digit_digitChar (show c.year.toNat % 10 < 10 by omega)).1]
      simp only [ih0]
      have e : ((((c.year.toNat / 100 / 10 % 10 * 10 + c.year.toNat / 100 % 10) * 10 + c.year.toNat / 10 % 10) * 10 + c.year.toNat % 10 : Nat) : Int) = c.year := by
        rw [hn]; simp only [Int.toNat_natCast]; omega
      rw [e]
      rfl
    · simp only [DatePiece.at, drop_two, Spec.DatePiece.elem, parseElems, getnum_two (show c.month < 100 by omega)]
      rw [if_neg (by omega), ih0]
      rfl
    · simp only [DatePiece.at, drop_two, Spec.DatePiece.elem, parseElems, getnum_two hd3]
      rw [ih0]
      rfl
    · simp only [DatePiece.at, drop_two, Spec.DatePiece.elem, parseElems, getnum_two (show c.hour < 100 by omega)]
      rw [if_neg (by omega), ih0]
      rfl
    · simp only [DatePiece.at, drop_two, Spec.DatePiece.elem, parseElems, getnum_two (show c.minute < 100 by omega)]
      rw [if_neg (by omega), ih0]
      rfl
    · simp only [DatePiece.at, drop_two, Spec.DatePiece.elem, parseElems, getnum_two (show c.second < 100 by omega)]
      rw [if_neg (by omega), fraction_none]
      · simp only
        rw [ih0]
        rfl
      · cases ps with
        | nil => simp [nameAt]
        | cons q qs =>
          rw [nameAt_cons]
          rcases q with (_ | _ | _ | _ | _ | _) | x
          · simp only [DatePiece.at, fourDigits, List.append_assoc]
            obtain ⟨a, b, e, _, h⟩ := two_head (c.year.toNat / 100) (twoDigits c.year.toNat ++ nameAt qs c)
            rw [e]; simpa using h
          all_goals try
            simp only [DatePiece.at]
            obtain ⟨a, b, e, _, h⟩ := two_head _ _
            rw [e]; simpa using h
          simp only [DatePiece.at, List.cons_append, List.head?_cons, ne_eq, Option.some.injEq]
          rintro rfl
          exact hstop ⟨[], qs, rfl⟩
    · by_cases hx : x = ' '
      · subst hx
        cases sp
        · simp only [DatePiece.at, Spec.DatePiece.elem, parseElems, List.cons_append, List.nil_append, Bool.false_eq_true, if_false]
          have := ih true f
          simp only [if_true] at this
          simpa [setPiece] using this
        · simp only [DatePiece.at, Spec.DatePiece.elem, parseElems, List.cons_append, List.nil_append, if_true]
          have := ih true f
          simp only [if_true] at this
          simpa [setPiece] using this
      · have hv : (if sp then ([x] ++ nameAt ps c).dropWhile (· = ' ') else [x] ++ nameAt ps c) = x :: nameAt ps c := by
          cases sp <;> simp [hx]
        simp only [DatePiece.at, Spec.DatePiece.elem]
        rw [hv]
        have := ih0 f
        rw [parseElems]
        · simpa [setPiece] using this
        · intro h; exact hx (by simpa using h)

/-! ## Periods -/

/-- The beginning of the period. -/
def beginning (k : Nat) (c : Civil) : Civil :=
  { year := c.year, month := if 1 ≤ k then c.month else 1, day := if 2 ≤ k then c.day else 1,
    hour := if 3 ≤ k then c.hour else 0, minute := if 4 ≤ k then c.minute else 0, second := if 5 ≤ k then c.second else 0 }

theorem daysIn_pos (y : Int) {m : Nat} (h1 : 1 ≤ m) (h2 : m ≤ 12) : 1 ≤ daysIn m y := by
  have hm : m = 1 ∨ m = 2 ∨ m = 3 ∨ m = 4 ∨ m = 5 ∨ m = 6 ∨ m = 7 ∨ m = 8 ∨ m = 9 ∨ m = 10 ∨ m = 11 ∨ m = 12 := by omega
  unfold daysIn
  split
  · decide
  · rcases hm with h | h | h | h | h | h | h | h | h | h | h | h <;> rw [h] <;> decide

theorem beginning_exists {k : Nat} {c : Civil} (h : Exists c) : Exists (beginning k c) := by
  obtain ⟨a, b, d0, ⟨len, hlen, hd⟩, e, f, g⟩ := h
  have hm1 : 1 ≤ (beginning k c).month := by simp only [beginning]; split <;> omega
  have hm2 : (beginning k c).month ≤ 12 := by simp only [beginning]; split <;> omega
  refine ⟨hm1, hm2, ?_, ⟨_, monthLengths_get _ hm1 hm2, ?_⟩, ?_, ?_, ?_⟩
  · simp only [beginning]; split <;> omega
  · have := daysIn_pos (beginning k c).year hm1 hm2
    rw [monthLengths_get c.year a b] at hlen
    cases hlen
    by_cases hk : 2 ≤ k
    · simp only [beginning, if_pos hk, if_pos (show 1 ≤ k by omega)] at *
      exact hd
    · simp only [beginning, if_neg hk] at *
      omega
  · simp only [beginning]; split <;> omega
  · simp only [beginning]; split <;> omega
  · simp only [beginning]; split <;> omega

theorem beginning_before {k : Nat} {c c' : Civil} (h : CivilBefore (beginning k c) (beginning k c')) : CivilBefore c c' := by
  obtain ⟨y, m, d, h, mi, s⟩ := c
  obtain ⟨y', m', d', h', mi', s'⟩ := c'
  simp only [CivilBefore, beginning] at *
  rcases (show k = 0 ∨ k = 1 ∨ k = 2 ∨ k = 3 ∨ k = 4 ∨ 5 ≤ k by omega) with rfl | rfl | rfl | rfl | rfl | hk
  · simp at *; omega
  · simp at *; omega
  · simp at *; omega
  · simp at *; omega
  · simp at *; omega
  · simp only [hk, show 1 ≤ k by omega, show 2 ≤ k by omega, show 3 ≤ k by omega, show 4 ≤ k by omega, if_true] at *; omega

theorem beginning_mono {k : Nat} {c c' : Civil} (hc : Exists c) (hc' : Exists c') (h : secondsTo c ≤ secondsTo c') :
    secondsTo (beginning k c) ≤ secondsTo (beginning k c') := by
  rcases before_or (beginning k c') (beginning k c) with h' | h' | h'
  · have := before_lt hc' hc (beginning_before h'); omega
  · rw [h']; omega
  · have := before_lt (beginning_exists hc) (beginning_exists hc') h'; omega

theorem beginning_le {k : Nat} {c : Civil} (hc : Exists c) : secondsTo (beginning k c) ≤ secondsTo c := by
  rcases before_or (beginning k c) c with h' | h' | h'
  · have := before_lt (beginning_exists hc) hc h'; omega
  · rw [h']; omega
  · obtain ⟨a, b, d0, _⟩ := hc
    obtain ⟨y, m, d, h, mi, s⟩ := c
    simp only [CivilBefore, beginning] at *
    rcases (show k = 0 ∨ k = 1 ∨ k = 2 ∨ k = 3 ∨ k = 4 ∨ 5 ≤ k by omega) with rfl | rfl | rfl | rfl | rfl | hk
    · simp at * <;> omega
    · simp at * <;> omega
    · simp at * <;> omega
    · simp at * <;> omega
    · simp at * <;> omega
    · simp only [hk, show 1 ≤ k by omega, show 2 ≤ k by omega, show 3 ≤ k by omega, show 4 ≤ k by omega, if_true] at *; omega

theorem nameAt_beginning {ps : List DatePiece} {k : Nat} (hf : ∀ f, .field f ∈ ps → f.rank ≤ k) (c : Civil) : nameAt ps (beginning k c) = nameAt ps c := by
  induction ps with
  | nil => rfl
  | cons p ps ih =>
    rw [nameAt_cons, nameAt_cons, ih fun f h => hf f (by simp [h])]
    congr 1
    rcases p with f | x
    · have := hf f (by simp)
      cases f <;> simp only [Field6.rank] at this <;> simp [DatePiece.at, beginning, this]
    · rfl

theorem foldl_setPiece (c : Civil) (ps : List DatePiece) (b : Civil) :
    ps.foldl (setPiece c) b =
      { year := if .field .year ∈ ps then c.year else b.year, month := if .field .month ∈ ps then c.month else b.month,
        day := if .field .day ∈ ps then c.day else b.day, hour := if .field .hour ∈ ps then c.hour else b.hour,
        minute := if .field .minute ∈ ps then c.minute else b.minute, second := if .field .second ∈ ps then c.second else b.second } := by
  induction ps generalizing b with
  | nil => rfl
  | cons p ps ih =>
    rw [List.foldl_cons, ih]
    rcases p with (_ | _ | _ | _ | _ | _) | x <;> simp [setPiece]

theorem foldl_beginning {ps : List DatePiece} {k : Nat} (hf : ∀ f, .field f ∈ ps ↔ f.rank ≤ k) (c : Civil) :
    ps.foldl (setPiece c) { year := 0, month := 1, day := 1, hour := 0, minute := 0, second := 0 } = beginning k c := by
  rw [foldl_setPiece]
  simp only [hf, Field6.rank, beginning, Nat.zero_le, if_true]

theorem show_pieces {c : Civil} (hc : Exists c) (hy : 0 ≤ c.year ∧ c.year < 10000) (ps : List DatePiece) :
    (ps.map Spec.DatePiece.elem).flatMap (Elem.show c) = nameAt ps c := by
  obtain ⟨hm1, hm2, hd1, ⟨len, hlen, hd2⟩, hh, hmi, hse⟩ := hc
  have hd3 : c.day < 100 := by
    rw [monthLengths_get c.year hm1 hm2] at hlen
    cases hlen
    have := daysIn_le c.year hm1 hm2
    omega
  induction ps with
  | nil => rfl
  | cons p ps ih =>
    rw [List.map_cons, List.flatMap_cons, ih, nameAt_cons]
    congr 1
    rcases p with (_ | _ | _ | _ | _ | _) | x
    · exact pad_four hy.1 hy.2
    · exact pad_two (by omega)
    · exact pad_two hd3
    · exact pad_two (by omega)
    · exact pad_two (by omega)
    · exact pad_two (by omega)
    · rfl

theorem date_eq (z : Zone) {c : Civil} (hc : Exists c) : ∃ v, z.date c 0 = (secondsTo c - unixToInternal - (z.lookup v).1) * 1000000000 := by
  have e : dayOf c.year c.month c.day * 86400 + ((c.hour * 3600 + c.minute * 60 + c.second : Nat) : Int) = secondsTo c := by
    rw [dayOf_eq _ _ hc.1 hc.2.1]
    unfold secondsTo
    omega
  unfold Zone.date
  simp only [e]
  split
  · split
    · exact ⟨_, by rw [Int.natCast_zero, Int.add_zero]⟩
    · split
      · exact ⟨_, by rw [Int.natCast_zero, Int.add_zero]⟩
      · exact ⟨_, by rw [Int.natCast_zero, Int.add_zero]⟩
  · rename_i h
    refine ⟨secondsTo c - unixToInternal, ?_⟩
    rw [show (z.lookup (secondsTo c - unixToInternal)).1 = 0 from Classical.not_not.mp h]
    omega

theorem fixed_date (off : Int) {c : Civil} (hc : Exists c) : (fixedZone off).date c 0 = (secondsTo c - unixToInternal - off) * 1000000000 := by
  obtain ⟨v, h⟩ := date_eq (fixedZone off) hc
  exact h

/-- What the calendar shows. -/
def shown (z : Zone) (t : Int) : Civil := civil (z.clock t)

theorem shown_reads (z : Zone) (t : Int) : Reads z t (shown z t) := ⟨(civil_spec _).1, (civil_spec _).2⟩

theorem reads_shown {z : Zone} {t : Int} {c : Civil} (h : Reads z t c) : c = shown z t :=
  secondsTo_inj h.1 (shown_reads z t).1 (h.2.trans (shown_reads z t).2.symm)

theorem four_year {z : Zone} {t : Int} (h : FourDigitYear z t) : 0 ≤ (shown z t).year ∧ (shown z t).year < 10000 := by
  obtain ⟨c, h, h'⟩ := h
  rw [reads_shown h] at h'
  exact h'

theorem library_format {z : Zone} {other : RLib} {ps : List DatePiece} {k : Nat} (hp : NamesDownTo ps k) {t : Int} (ht : FourDigitYear z t) :
    (library z other).format t (patternText ps) = nameAt ps (shown z t) := by
  simp only [library, scan_pattern ps hp.seps]
  exact show_pieces (shown_reads z t).1 (four_year ht) ps

theorem name_parse {ps : List DatePiece} {k : Nat} (hp : NamesDownTo ps k) {c : Civil} (hc : Exists c) (hy : 0 ≤ c.year ∧ c.year < 10000) :
    parseElems false (ps.map Spec.DatePiece.elem) (nameAt ps c) {} = some { civil := beginning k c } := by
  have h := parse_name hc hy ps hp.seps hp.stop false {}
  simp only [Bool.false_eq_true, if_false] at h
  rw [foldl_beginning hp.fields] at h
  exact h

theorem library_parse {z : Zone} {other : RLib} {ps : List DatePiece} {k : Nat} (hp : NamesDownTo ps k) {c : Civil} (hc : Exists c) (hy : 0 ≤ c.year ∧ c.year < 10000) :
    (library z other).parse (patternText ps) (nameAt ps c) = some (z.date (beginning k c) 0) := by
  have he := beginning_exists (k := k) hc
  simp only [library, scan_pattern ps hp.seps, Zone.parse, name_parse hp hc hy]
  obtain ⟨a, b, d0, ⟨len, hlen, hd⟩, _⟩ := he
  rw [monthLengths_get _ a b] at hlen
  cases hlen
  rw [if_neg (by omega)]

theorem name_beginning {ps : List DatePiece} {k : Nat} (hp : NamesDownTo ps k) {c c' : Civil} (hc : Exists c) (hy : 0 ≤ c.year ∧ c.year < 10000)
    (hc' : Exists c') (hy' : 0 ≤ c'.year ∧ c'.year < 10000) (h : nameAt ps c = nameAt ps c') : beginning k c = beginning k c' := by
  have h1 := name_parse hp hc hy
  rw [h, name_parse hp hc' hy'] at h1
  simp only [Option.some.injEq, Read.mk.injEq, and_true] at h1
  exact h1.symm

theorem name_nonempty {ps : List DatePiece} {k : Nat} (hp : NamesDownTo ps k) (c : Civil) : nameAt ps c ≠ [] := by
  have := (hp.fields .year).mpr (Nat.zero_le _)
  intro h
  simp only [nameAt, List.flatMap_eq_nil_iff] at h
  have := h _ this
  simp [DatePiece.at, fourDigits, twoDigits] at this

/-- When the period began. -/
def periodStart (z : Zone) (k : Nat) (t : Int) : Int := z.date (beginning k (shown z t)) 0

theorem beginning_whole (k : Nat) (c : Civil) : secondsTo (beginning k c) % shortest k = 0 := by
  unfold shortest secondsTo beginning
  by_cases h2 : k ≤ 2
  · rw [if_pos h2]
    simp only [show ¬ 3 ≤ k by omega, show ¬ 4 ≤ k by omega, show ¬ 5 ≤ k by omega, if_false]
    omega
  · rw [if_neg h2]
    by_cases h3 : k = 3
    · subst h3
      simp only [if_true, show ¬ 4 ≤ 3 by omega, show ¬ 5 ≤ 3 by omega, if_false]
      omega
    · rw [if_neg h3]
      by_cases h4 : k = 4
      · subst h4
        simp only [if_true, show ¬ 5 ≤ 4 by omega, if_false]
        omega
      · rw [if_neg h4]; omega

theorem shortest_pos (k : Nat) : 0 < shortest k := by
  unfold shortest
  split
  · decide
  · split
    · decide
    · split <;> decide

theorem beginning_gap {k : Nat} {c c' : Civil} (h : secondsTo (beginning k c) < secondsTo (beginning k c')) :
    secondsTo (beginning k c) + shortest k ≤ secondsTo (beginning k c') := by
  have h1 := beginning_whole k c
  have h2 := beginning_whole k c'
  have h0 := shortest_pos k
  obtain ⟨a, ha⟩ := Int.dvd_of_emod_eq_zero h1
  obtain ⟨b, hb⟩ := Int.dvd_of_emod_eq_zero h2
  rw [ha, hb] at h ⊢
  have hab : a < b := Int.lt_of_mul_lt_mul_left h (Int.le_of_lt h0)
  have : shortest k * (a + 1) ≤ shortest k * b := Int.mul_le_mul_of_nonneg_left hab (Int.le_of_lt h0)
  rw [Int.mul_add, Int.mul_one] at this
  exact this

theorem date_lt {z : Zone} {k : Nat} (hz : SmallChanges z k) {c c' : Civil} (hc : Exists c) (hc' : Exists c')
    (h : secondsTo (beginning k c) < secondsTo (beginning k c')) : z.date (beginning k c) 0 < z.date (beginning k c') 0 := by
  obtain ⟨u, hu⟩ := date_eq z (beginning_exists (k := k) hc)
  obtain ⟨v, hv⟩ := date_eq z (beginning_exists (k := k) hc')
  have := beginning_gap h
  have := hz v u
  rw [hu, hv]
  omega

theorem date_le {z : Zone} {k : Nat} (hz : SmallChanges z k) {c c' : Civil} (hc : Exists c) (hc' : Exists c')
    (h : secondsTo (beginning k c) ≤ secondsTo (beginning k c')) : z.date (beginning k c) 0 ≤ z.date (beginning k c') 0 := by
  rcases Int.lt_or_eq_of_le h with h | h
  · exact Int.le_of_lt (date_lt hz hc hc' h)
  · rw [secondsTo_inj (beginning_exists hc) (beginning_exists hc') h]
    exact Int.le_refl _

theorem beginning_of (k : Nat) (c : Civil) : BeginningOf k c (beginning k c) := ⟨rfl, rfl, rfl, rfl, rfl, rfl⟩

theorem beginningOf_eq {k : Nat} {c b : Civil} (h : BeginningOf k c b) : b = beginning k c := by
  obtain ⟨h1, h2, h3, h4, h5, h6⟩ := h
  cases b
  simp only [beginning, Civil.mk.injEq]
  exact ⟨h1, h2, h3, h4, h5, h6⟩

theorem calendar_periods {z : Zone} {other : RLib} {ps : List DatePiece} {k : Nat} (hp : NamesDownTo ps k) (hz : SmallChanges z k) {T0 T1 : Int}
    (hback : NeverBack z k T0 T1) (hT : ∀ t, T0 ≤ t → t ≤ T1 → FourDigitYear z t) : Periods (library z other) (patternText ps) (periodStart z k) T0 T1 where
  mono s t h0 h h1 :=
    date_le hz (shown_reads z s).1 (shown_reads z t).1 (hback s t _ _ _ _ h0 h h1 (shown_reads z s) (shown_reads z t) (beginning_of _ _) (beginning_of _ _))
  nonempty t h0 h1 := by
    rw [library_format hp (hT t h0 h1)]
    exact name_nonempty hp _
  parse t h0 h1 := by
    rw [library_format hp (hT t h0 h1)]
    exact library_parse hp (shown_reads z t).1 (four_year (hT t h0 h1))
  same s t h0 h h1 e := by
    rw [library_format hp (hT s h0 (by omega)), library_format hp (hT t (by omega) h1)]
    have hle := hback s t _ _ _ _ h0 h h1 (shown_reads z s) (shown_reads z t) (beginning_of _ _) (beginning_of _ _)
    have e : secondsTo (beginning k (shown z s)) = secondsTo (beginning k (shown z t)) := by
      rcases Int.lt_or_eq_of_le hle with h | h
      · have := date_lt hz (shown_reads z s).1 (shown_reads z t).1 h
        unfold periodStart at e
        omega
      · exact h
    have e := secondsTo_inj (beginning_exists (shown_reads z s).1) (beginning_exists (shown_reads z t).1) e
    rw [← nameAt_beginning (fun f h => (hp.fields f).mp h) (shown z s), e, nameAt_beginning (fun f h => (hp.fields f).mp h)]

theorem fixed_changes (off : Int) (k : Nat) : SmallChanges (fixedZone off) k := fun _ _ => by
  have := shortest_pos k
  simp only [fixedZone]
  omega

theorem neverBack_of {z : Zone} {k : Nat} {T0 T1 : Int} (h : ∀ s t, T0 ≤ s → s ≤ t → t ≤ T1 → secondsTo (beginning k (shown z s)) ≤ secondsTo (beginning k (shown z t))) :
    NeverBack z k T0 T1 := by
  intro s t c c' b b' h0 hst h1 hc hc' hb hb'
  rw [reads_shown hc] at hb
  rw [reads_shown hc'] at hb'
  rw [beginningOf_eq hb, beginningOf_eq hb']
  exact h s t h0 hst h1

theorem fixed_never (off : Int) (k : Nat) (T0 T1 : Int) : NeverBack (fixedZone off) k T0 T1 := by
  refine neverBack_of fun s t _ h _ => beginning_mono (shown_reads _ s).1 (shown_reads _ t).1 ?_
  rw [(shown_reads _ s).2, (shown_reads _ t).2]
  have : s / 1000000000 ≤ t / 1000000000 := Int.ediv_le_ediv (by decide) h
  simp only [offsetAt, fixedZone]
  omega

theorem fixed_four {off T0 T1 t : Int} (h0 : FourDigitYear (fixedZone off) T0) (h1 : FourDigitYear (fixedZone off) T1) (a : T0 ≤ t) (b : t ≤ T1) :
    FourDigitYear (fixedZone off) t := by
  have mono : ∀ s t, s ≤ t → (shown (fixedZone off) s).year ≤ (shown (fixedZone off) t).year := by
    intro s t h
    have h' : secondsTo (shown (fixedZone off) s) ≤ secondsTo (shown (fixedZone off) t) := by
      rw [(shown_reads _ s).2, (shown_reads _ t).2]
      have : s / 1000000000 ≤ t / 1000000000 := Int.ediv_le_ediv (by decide) h
      simp only [offsetAt, fixedZone]
      omega
    apply Int.not_lt.mp
    intro hy
    have := before_lt (shown_reads _ t).1 (shown_reads _ s).1 (.inl hy)
    omega
  have g0 := four_year h0
  have g1 := four_year h1
  have := mono _ _ a
  have := mono _ _ b
  exact ⟨_, shown_reads _ t, by omega, by omega⟩

theorem fixed_start (off : Int) (k : Nat) (t : Int) : periodStart (fixedZone off) k t = (secondsTo (beginning k (shown (fixedZone off) t)) - unixToInternal - off) * 1000000000 :=
  fixed_date off (beginning_exists (shown_reads _ t).1)

theorem period_reads (off : Int) (k : Nat) (t : Int) : Reads (fixedZone off) (periodStart (fixedZone off) k t) (beginning k (shown (fixedZone off) t)) := by
  refine ⟨beginning_exists (shown_reads _ t).1, ?_⟩
  have : dayNumber 1970 1 1 * 86400 = unixToInternal := rfl
  rw [this, fixed_start]
  simp only [offsetAt, fixedZone]
  omega

theorem days_whole (c : Civil) (hc : Exists c) : secondsTo (beginning 2 c) = secondsTo c / 86400 * 86400 := by
  obtain ⟨a, b, d0, _, e, f, g⟩ := hc
  unfold secondsTo beginning
  simp only [Nat.le_refl, if_true, show 1 ≤ 2 by omega, show ¬ 3 ≤ 2 by omega, show ¬ 4 ≤ 2 by omega, show ¬ 5 ≤ 2 by omega, if_false]
  omega

end Log4g
