import Verif.Lemmas.Numbers

namespace Log4g
open Spec Strconv

theorem char_ext {c d : Char} (h : c.toNat = d.toNat) : c = d := Char.toNat_inj.mp h

/-- `BaseDigit` is the digit value of strconv, below the base. -/
theorem baseDigit_iff (b : Nat) (hb : b ≤ 16) (c : Char) (d : Nat) :
    BaseDigit b c d ↔ d < b ∧ digitVal c = some d := by
  unfold BaseDigit
  constructor
  · rintro ⟨h1, h2⟩
    refine ⟨h1, ?_⟩
    have hd : d < 16 := by omega
    have : d = 0 ∨ d = 1 ∨ d = 2 ∨ d = 3 ∨ d = 4 ∨ d = 5 ∨ d = 6 ∨ d = 7 ∨ d = 8 ∨ d = 9 ∨ d = 10 ∨
      d = 11 ∨ d = 12 ∨ d = 13 ∨ d = 14 ∨ d = 15 := by omega
    rcases this with rfl | rfl | rfl | rfl | rfl | rfl | rfl | rfl | rfl | rfl | rfl | rfl | rfl |
      rfl | rfl | rfl <;> simp at h2 <;> first | (rcases h2 with rfl | rfl <;> rfl) | (subst h2; rfl)
  · rintro ⟨h1, h2⟩
    refine ⟨h1, ?_⟩
    have hd : d < 16 := by omega
    have key : (∃ k, c.toNat = 48 + k ∧ k < 10 ∧ d = k) ∨ (∃ k, c.toNat = 97 + k ∧ k < 6 ∧ d = 10 + k) ∨
        (∃ k, c.toNat = 65 + k ∧ k < 6 ∧ d = 10 + k) := by
      have e1 : '0'.toNat = 48 := rfl
      have e2 : '9'.toNat = 57 := rfl
      have e3 : 'a'.toNat = 97 := rfl
      have e4 : 'z'.toNat = 122 := rfl
      have e5 : 'A'.toNat = 65 := rfl
      have e6 : 'Z'.toNat = 90 := rfl
      simp only [digitVal, e1, e2, e3, e4, e5, e6] at h2
      split at h2
      · simp at h2; left; exact ⟨c.toNat - 48, by omega, by omega, by omega⟩
      · split at h2
        · simp at h2; right; left; exact ⟨c.toNat - 97, by omega, by omega, by omega⟩
        · split at h2
          · simp at h2; right; right; exact ⟨c.toNat - 65, by omega, by omega, by omega⟩
          · simp at h2
    rcases key with ⟨k, h3, h4, rfl⟩ | ⟨k, h3, h4, rfl⟩ | ⟨k, h3, h4, rfl⟩
    · left
      have : d = 0 ∨ d = 1 ∨ d = 2 ∨ d = 3 ∨ d = 4 ∨ d = 5 ∨ d = 6 ∨ d = 7 ∨ d = 8 ∨ d = 9 := by omega
      rcases this with rfl | rfl | rfl | rfl | rfl | rfl | rfl | rfl | rfl | rfl <;>
        · simp; exact (char_ext h3).symm
    · left
      have : k = 0 ∨ k = 1 ∨ k = 2 ∨ k = 3 ∨ k = 4 ∨ k = 5 := by omega
      rcases this with rfl | rfl | rfl | rfl | rfl | rfl <;>
        · simp; exact (char_ext h3).symm
    · right
      have : k = 0 ∨ k = 1 ∨ k = 2 ∨ k = 3 ∨ k = 4 ∨ k = 5 := by omega
      rcases this with rfl | rfl | rfl | rfl | rfl | rfl <;>
        · simp; exact (char_ext h3).symm

theorem digitVal_underscore : digitVal '_' = none := by decide

/-- What `underscoreScan` counts as a digit. -/
def scanDigit (hex : Bool) (c : Char) : Prop :=
  ('0'.toNat ≤ c.toNat ∧ c.toNat ≤ '9'.toNat) ∨
   (hex = true ∧ (('a'.toNat ≤ c.toNat ∧ c.toNat ≤ 'f'.toNat) ∨
                  ('A'.toNat ≤ c.toNat ∧ c.toNat ≤ 'F'.toNat)))

theorem scanDigit_of_val {b : Nat} {hex : Bool} (hb : b ≤ 10 ∨ (hex = true ∧ b ≤ 16)) {c : Char} {d : Nat}
    (h : d < b) (hv : digitVal c = some d) : scanDigit hex c := by
  have e1 : '0'.toNat = 48 := rfl
  have e2 : '9'.toNat = 57 := rfl
  have e3 : 'a'.toNat = 97 := rfl
  have e4 : 'z'.toNat = 122 := rfl
  have e5 : 'A'.toNat = 65 := rfl
  have e6 : 'Z'.toNat = 90 := rfl
  have e7 : 'f'.toNat = 102 := rfl
  have e8 : 'F'.toNat = 70 := rfl
  simp only [scanDigit, digitVal, e1, e2, e3, e4, e5, e6, e7, e8] at hv ⊢
  split at hv
  · left; assumption
  · split at hv
    · simp at hv
      rcases hb with hb | ⟨hx, hb⟩
      · omega
      · right; exact ⟨hx, by omega⟩
    · split at hv
      · simp at hv
        rcases hb with hb | ⟨hx, hb⟩
        · omega
        · right; exact ⟨hx, by omega⟩
      · simp at hv

theorem scan_digit {hex : Bool} {c : Char} (h : scanDigit hex c) (saw : Saw) (s : Str) :
    underscoreScan hex saw (c :: s) = underscoreScan hex .digit s := by
  rw [underscoreScan]
  exact if_pos h

theorem not_scanDigit_underscore (hex : Bool) : ¬ scanDigit hex '_' := by
  unfold scanDigit; cases hex <;> decide

theorem scan_underscore (hex : Bool) (saw : Saw) (s : Str) :
    underscoreScan hex saw ('_' :: s) = (if saw = .digit then underscoreScan hex .underscore s else false) := by
  have h := not_scanDigit_underscore hex
  unfold scanDigit at h
  rw [underscoreScan, if_neg h, if_pos rfl]

/-- Success of the digit loop together with the underscore rule is exactly the literal grammar. -/
theorem more_iff (us hex : Bool) (b M : Nat) (hb : b ≤ 10 ∨ (hex = true ∧ b ≤ 16)) (s : Str) :
    ∀ acc v, acc ≤ M →
    ((parseLoop us b M acc s = (v, none) ∧ (us = true → underscoreScan hex .digit s = true)) ↔
      (More us b acc s v ∧ v ≤ M)) := by
  have hb16 : b ≤ 16 := by omega
  -- one digit step
  have step : ∀ (c : Char) (t : Str) acc v, acc ≤ M → c ≠ '_' →
      (∀ acc v, acc ≤ M →
        ((parseLoop us b M acc t = (v, none) ∧ (us = true → underscoreScan hex .digit t = true)) ↔
          (More us b acc t v ∧ v ≤ M))) →
      ∀ saw, ((parseLoop us b M acc (c :: t) = (v, none) ∧
          (us = true → underscoreScan hex saw (c :: t) = true)) ↔
        ((∃ d, BaseDigit b c d ∧ More us b (acc * b + d) t v) ∧ v ≤ M)) := by
    intro c t acc v hacc hc ih saw
    constructor
    · rintro ⟨h1, h2⟩
      rw [parseLoop] at h1
      simp only [hc, and_false, if_false] at h1
      split at h1
      · simp at h1
      · rename_i d hd
        split at h1
        · simp at h1
        · rename_i hbd
          split at h1
          · simp at h1
          · rename_i hM
            have hsd := scanDigit_of_val hb (by omega) hd
            simp only [scan_digit hsd] at h2
            have := (ih _ v (by omega)).mp ⟨h1, h2⟩
            exact ⟨⟨d, (baseDigit_iff b hb16 c d).mpr ⟨by omega, hd⟩, this.1⟩, this.2⟩
    · rintro ⟨⟨d, hd, hm⟩, hv⟩
      obtain ⟨hdb, hdv⟩ := (baseDigit_iff b hb16 c d).mp hd
      have hsd := scanDigit_of_val hb hdb hdv
      have hle : acc * b + d ≤ v := by
        clear ih hacc
        have : ∀ {a s n}, More us b a s n → 1 ≤ b → a ≤ n := by
          intro a s n h h1
          induction h with
          | done => exact Nat.le_refl _
          | @digit acc _ _ _ _ _ _ ih => have := Nat.le_mul_of_pos_right acc h1; omega
          | @underscore acc _ _ _ _ _ _ _ ih => have := Nat.le_mul_of_pos_right acc h1; omega
        exact this hm (by omega)
      have := (ih _ v (by omega)).mpr ⟨hm, hv⟩
      rw [scan_digit hsd, parseLoop]
      simp only [hc, and_false, if_false, hdv]
      rw [if_neg (by omega), if_neg (by omega)]
      exact this
  have main : ∀ k, ∀ s : Str, s.length ≤ k → ∀ acc v, acc ≤ M →
      ((parseLoop us b M acc s = (v, none) ∧ (us = true → underscoreScan hex .digit s = true)) ↔
        (More us b acc s v ∧ v ≤ M)) := by
    intro k
    induction k with
    | zero =>
      intro s hs acc v hacc
      have : s = [] := List.length_eq_zero_iff.mp (by omega)
      subst this
      simp only [parseLoop, underscoreScan]
      constructor
      · rintro ⟨h, _⟩
        injection h with h _; subst h
        exact ⟨.done, hacc⟩
      · rintro ⟨h, _⟩; cases h; simp
    | succ k ih =>
      intro s hs acc v hacc
      cases s with
      | nil => exact ih [] (by simp) acc v hacc
      | cons c t =>
        by_cases hc : c = '_'
        · subst hc
          have nomore : ∀ {t}, More us b acc ('_' :: t) v →
              us = true ∧ ∃ c d s, t = c :: s ∧ BaseDigit b c d ∧ More us b (acc * b + d) s v := by
            intro t h
            cases h with
            | digit hd _ =>
              have := ((baseDigit_iff b hb16 _ _).mp hd).2
              rw [digitVal_underscore] at this; simp at this
            | underscore hu hd hm => exact ⟨hu, _, _, _, rfl, hd, hm⟩
          cases us with
          | false =>
            constructor
            · rintro ⟨h, _⟩
              simp [parseLoop, digitVal_underscore] at h
            · rintro ⟨h, _⟩; simpa using (nomore h).1
          | true =>
            have e : parseLoop true b M acc ('_' :: t) = parseLoop true b M acc t := by
              rw [parseLoop]; simp
            rw [e, scan_underscore, if_pos rfl]
            cases t with
            | nil =>
              constructor
              · rintro ⟨_, h⟩; simp [underscoreScan] at h
              · rintro ⟨h, _⟩
                obtain ⟨_, _, _, _, h, _⟩ := nomore h
                simp at h
            | cons c t =>
              by_cases hc : c = '_'
              · subst hc
                constructor
                · rintro ⟨_, h⟩; simp [scan_underscore] at h
                · rintro ⟨h, _⟩
                  obtain ⟨_, c, d, s, h, hd, _⟩ := nomore h
                  injection h with h _; subst h
                  have := ((baseDigit_iff b hb16 _ _).mp hd).2
                  rw [digitVal_underscore] at this; simp at this
              · rw [step c t acc v hacc hc (ih t (by simp at hs; omega)) .underscore]
                constructor
                · rintro ⟨⟨d, hd, hm⟩, hv⟩; exact ⟨.underscore rfl hd hm, hv⟩
                · rintro ⟨h, hv⟩
                  obtain ⟨_, c', d, s, h, hd, hm⟩ := nomore h
                  injection h with h1 h2; subst h1; subst h2
                  exact ⟨⟨d, hd, hm⟩, hv⟩
        · rw [step c t acc v hacc hc (ih t (by simp at hs; omega)) .digit]
          constructor
          · rintro ⟨⟨d, hd, hm⟩, hv⟩; exact ⟨.digit hd hm, hv⟩
          · rintro ⟨h, hv⟩
            cases h with
            | digit hd hm => exact ⟨⟨_, hd, hm⟩, hv⟩
            | underscore => exact absurd rfl hc
  exact main s.length s (Nat.le_refl _)

/-- Without underscores the scan cannot fail on digits. -/
theorem scan_of_no_underscore (us hex : Bool) (b M : Nat) (hb : b ≤ 10 ∨ (hex = true ∧ b ≤ 16)) (s : Str) :
    ∀ acc v saw, saw ≠ .underscore → '_' ∉ s → parseLoop us b M acc s = (v, none) →
      underscoreScan hex saw s = true := by
  induction s with
  | nil => intro acc v saw h _ _; simp [underscoreScan, h]
  | cons c t ih =>
    intro acc v saw _ hn h
    simp only [List.mem_cons, not_or] at hn
    rw [parseLoop] at h
    have hc : ¬ c = '_' := fun h => hn.1 h.symm
    simp only [hc, and_false, if_false] at h
    split at h
    · simp at h
    · rename_i d hd
      split at h
      · simp at h
      · split at h
        · simp at h
        · rw [scan_digit (scanDigit_of_val hb (by omega) hd)]
          exact ih _ v .digit (by simp) hn.2 h

/-- Which underscore rule a toolchain has. -/
def Strconv.Toolchain.us (tc : Toolchain) : Bool := tc = .since113

/-- The unsigned base-0 parse succeeds exactly on literals that fit 32 bits. -/
theorem parseUint0_iff (tc : Toolchain) (s : Str) (v : Nat) :
    parseUint0 tc s = (v, none) ↔ GoLit tc.us s v ∧ v ≤ 2 ^ 32 - 1 := by
  have gen : ∀ (hex : Bool) (b : Nat) (ds : Str), (b ≤ 10 ∨ (hex = true ∧ b ≤ 16)) →
      (tc = .since113 → underscoreOK s = underscoreScan hex .digit ds) → s ≠ [] →
      base0 tc s = some (b, ds) →
      (parseUint0 tc s = (v, none) ↔ More tc.us b 0 ds v ∧ v ≤ 2 ^ 32 - 1) := by
    intro hex b ds hb hok hs h0
    rw [← more_iff tc.us hex b (2 ^ 32 - 1) hb ds 0 v (by omega)]
    simp only [parseUint0, hs, if_false, h0]
    have hus : (decide (tc = .since113)) = tc.us := rfl
    rw [hus]
    constructor
    · intro h
      split at h
      · rename_i v' hv
        split at h
        · simp at h
        · rename_i hcond
          injection h with h _; subst h
          refine ⟨hv, ?_⟩
          intro hu
          have htc : tc = .since113 := by simpa [Toolchain.us] using hu
          by_cases hm : '_' ∈ ds
          · rw [← hok htc]
            simp only [htc, hm, true_and] at hcond
            simpa using hcond
          · exact scan_of_no_underscore tc.us hex b _ hb ds 0 v' .digit (by simp) hm hv
      · rename_i hne
        exact absurd h (by intro h; exact hne _ h)
    · rintro ⟨h1, h2⟩
      rw [h1]
      simp only
      rw [if_neg]
      rintro ⟨htc, _, h3⟩
      rw [hok htc, h2 (by simp [Toolchain.us, htc])] at h3
      simp at h3
  by_cases hs : s = []
  · subst hs
    constructor
    · intro h; simp [parseUint0] at h
    · rintro ⟨h, _⟩; cases h
  cases s with
  | nil => exact absurd rfl hs
  | cons c0 t =>
    by_cases hc0 : c0 = '0'
    · subst hc0
      have hz : scanDigit false '0' := .inl (by decide)
      cases t with
      | nil =>
        rw [gen false 8 [] (by omega) (by intro; rw [underscoreOK, scan_digit hz]; simp) (by simp) (by simp [base0])]
        constructor
        · rintro ⟨h, hv⟩; exact ⟨.oct h, hv⟩
        · rintro ⟨h, hv⟩
          cases h with
          | oct h => exact ⟨h, hv⟩
          | dec h hd =>
            have := ((baseDigit_iff 10 (by omega) _ _).mp h).2
            simp [digitVal] at this; exact absurd this.symm hd
      | cons x r =>
        have inv : GoLit tc.us ('0' :: x :: r) v →
            More tc.us 8 0 (x :: r) v ∨ ((x = 'x' ∨ x = 'X') ∧ r ≠ [] ∧ More tc.us 16 0 r v) ∨
            (tc.us = true ∧ (x = 'b' ∨ x = 'B') ∧ r ≠ [] ∧ More tc.us 2 0 r v) ∨
            (tc.us = true ∧ (x = 'o' ∨ x = 'O') ∧ r ≠ [] ∧ More tc.us 8 0 r v) := by
          intro h
          cases h with
          | dec h hd =>
            have := ((baseDigit_iff 10 (by omega) _ _).mp h).2
            simp [digitVal] at this; exact absurd this.symm hd
          | oct h => exact .inl h
          | hex hx hr h => exact .inr (.inl ⟨hx, hr, h⟩)
          | bin hu hx hr h => exact .inr (.inr (.inl ⟨hu, hx, hr, h⟩))
          | oct' hu hx hr h => exact .inr (.inr (.inr ⟨hu, hx, hr, h⟩))
        have nooct : ∀ y : Char, digitVal y = none ∨ (∃ d, digitVal y = some d ∧ 8 ≤ d) → y ≠ '_' →
            ∀ u r v, ¬ More u 8 0 (y :: r) v := by
          intro y hy hyu u r v h
          cases h with
          | digit hd _ =>
            obtain ⟨h1, h2⟩ := (baseDigit_iff 8 (by omega) _ _).mp hd
            rcases hy with hy | ⟨d, hy, hd⟩
            · rw [h2] at hy; simp at hy
            · rw [h2] at hy; injection hy with hy; omega
          | underscore _ _ _ => exact hyu rfl
        have hus : tc.us = true → tc = .since113 := by intro h; simpa [Toolchain.us] using h
        by_cases hx : x = 'x' ∨ x = 'X'
        · have hxd : ∀ u r v, ¬ More u 8 0 (x :: r) v := by
            rcases hx with rfl | rfl <;> exact nooct _ (.inr ⟨33, by decide, by omega⟩) (by decide)
          have hlet : isLetter x 'x' 'X' = true := by rcases hx with rfl | rfl <;> rfl
          by_cases hr : r = []
          · subst hr
            constructor
            · intro h
              exfalso
              cases tc with
              | pre113 => simp [parseUint0, base0, hlet] at h
              | since113 =>
                have hv := (gen false 8 [x] (by omega) (by
                  intro; rcases hx with rfl | rfl <;> decide) (by simp) (by simp [base0, hlet])).mp h
                exact hxd _ _ _ hv.1
            · rintro ⟨h, _⟩
              exfalso
              rcases inv h with h | ⟨_, h, _⟩ | ⟨_, _, h, _⟩ | ⟨_, _, h, _⟩
              · exact hxd _ _ _ h
              · exact h rfl
              · exact h rfl
              · exact h rfl
          · rw [gen true 16 r (.inr ⟨rfl, by omega⟩) (by
                intro; rw [underscoreOK]; simp [hlet]) (by simp) (by simp [base0, hlet, hr])]
            constructor
            · rintro ⟨h, hv⟩; exact ⟨.hex hx hr h, hv⟩
            · rintro ⟨h, hv⟩
              rcases inv h with h | ⟨_, _, h⟩ | ⟨_, h', _, h⟩ | ⟨_, h', _, h⟩
              · exact absurd h (hxd _ _ _)
              · exact ⟨h, hv⟩
              · rcases hx with rfl | rfl <;> simp at h'
              · rcases hx with rfl | rfl <;> simp at h'
        · have hxf : isLetter x 'x' 'X' = false := by
            simp only [not_or] at hx
            simp [isLetter, hx.1, hx.2]
          by_cases hbn : tc = .since113 ∧ (x = 'b' ∨ x = 'B') ∧ r ≠ []
          · obtain ⟨htc, hb, hr⟩ := hbn
            have hlet : isLetter x 'b' 'B' = true := by rcases hb with rfl | rfl <;> rfl
            have hxd : ∀ u r v, ¬ More u 8 0 (x :: r) v := by
              rcases hb with rfl | rfl <;> exact nooct _ (.inr ⟨11, by decide, by omega⟩) (by decide)
            rw [gen false 2 r (by omega) (by
                intro; rw [underscoreOK]; simp [hlet, hxf]) (by simp) (by simp [base0, hxf, htc, hlet, hr])]
            constructor
            · rintro ⟨h, hv⟩; exact ⟨.bin (by simp [Toolchain.us, htc]) hb hr h, hv⟩
            · rintro ⟨h, hv⟩
              rcases inv h with h | ⟨h', _, h⟩ | ⟨_, _, _, h⟩ | ⟨_, h', _, h⟩
              · exact absurd h (hxd _ _ _)
              · exact absurd h' hx
              · exact ⟨h, hv⟩
              · rcases hb with rfl | rfl <;> simp at h'
          · by_cases ho : tc = .since113 ∧ (x = 'o' ∨ x = 'O') ∧ r ≠ []
            · obtain ⟨htc, hb, hr⟩ := ho
              have hlet : isLetter x 'o' 'O' = true := by rcases hb with rfl | rfl <;> rfl
              have hlet' : isLetter x 'b' 'B' = false := by rcases hb with rfl | rfl <;> rfl
              have hxd : ∀ u r v, ¬ More u 8 0 (x :: r) v := by
                rcases hb with rfl | rfl <;> exact nooct _ (.inr ⟨24, by decide, by omega⟩) (by decide)
              rw [gen false 8 r (by omega) (by
                  intro; rw [underscoreOK]; simp [hlet, hxf]) (by simp)
                  (by simp [base0, hxf, htc, hlet, hlet', hr])]
              constructor
              · rintro ⟨h, hv⟩; exact ⟨.oct' (by simp [Toolchain.us, htc]) hb hr h, hv⟩
              · rintro ⟨h, hv⟩
                rcases inv h with h | ⟨h', _, h⟩ | ⟨_, h', _, h⟩ | ⟨_, _, _, h⟩
                · exact absurd h (hxd _ _ _)
                · exact absurd h' hx
                · rcases hb with rfl | rfl <;> simp at h'
                · exact ⟨h, hv⟩
            · -- plain octal
              have hb0 : base0 tc ('0' :: x :: r) = some (8, x :: r) := by
                simp only [base0, hxf, Bool.false_eq_true, if_false]
                rw [if_neg, if_neg]
                · rintro ⟨a, b, c⟩
                  exact ho ⟨a, by simpa [isLetter] using b, c⟩
                · rintro ⟨a, b, c⟩
                  exact hbn ⟨a, by simpa [isLetter] using b, c⟩
              have hoct : GoLit tc.us ('0' :: x :: r) v ↔ More tc.us 8 0 (x :: r) v := by
                constructor
                · intro h
                  rcases inv h with h | ⟨h', _, h⟩ | ⟨h1, h', h2, h⟩ | ⟨h1, h', h2, h⟩
                  · exact h
                  · exact absurd h' hx
                  · exact absurd ⟨hus h1, h', h2⟩ hbn
                  · exact absurd ⟨hus h1, h', h2⟩ ho
                · exact fun h => .oct h
              rw [hoct]
              by_cases hl : isLetter x 'b' 'B' = true ∨ isLetter x 'o' 'O' = true
              · -- a lone prefix letter is no octal digit
                have hxd : ∀ u r v, ¬ More u 8 0 (x :: r) v := by
                  have : x = 'b' ∨ x = 'B' ∨ x = 'o' ∨ x = 'O' := by
                    simp only [isLetter, Bool.or_eq_true, decide_eq_true_eq] at hl
                    rcases hl with (h | h) | (h | h) <;> simp [h]
                  rcases this with rfl | rfl | rfl | rfl
                  · exact nooct _ (.inr ⟨11, by decide, by omega⟩) (by decide)
                  · exact nooct _ (.inr ⟨11, by decide, by omega⟩) (by decide)
                  · exact nooct _ (.inr ⟨24, by decide, by omega⟩) (by decide)
                  · exact nooct _ (.inr ⟨24, by decide, by omega⟩) (by decide)
                constructor
                · intro h
                  exfalso
                  simp only [parseUint0, hb0, List.cons_ne_nil, if_false] at h
                  have : ∃ e, parseLoop (decide (tc = .since113)) 8 (2 ^ 32 - 1) 0 (x :: r) = (0, some e) := by
                    have : x = 'b' ∨ x = 'B' ∨ x = 'o' ∨ x = 'O' := by
                      simp only [isLetter, Bool.or_eq_true, decide_eq_true_eq] at hl
                      rcases hl with (h | h) | (h | h) <;> simp [h]
                    rcases this with rfl | rfl | rfl | rfl <;>
                      exact ⟨.syntax, by rw [parseLoop]; simp [digitVal]⟩
                  obtain ⟨e, he⟩ := this
                  rw [he] at h
                  simp at h
                · rintro ⟨h, _⟩; exact absurd h (hxd _ _ _)
              · have hl' : (isLetter x 'b' 'B' || isLetter x 'o' 'O' || isLetter x 'x' 'X') = false := by
                  simp only [not_or, Bool.not_eq_true] at hl
                  simp [hl.1, hl.2, hxf]
                exact gen false 8 (x :: r) (by omega) (by
                  intro; rw [underscoreOK]; simp only [hl', Bool.false_eq_true, if_false]
                  rw [scan_digit hz]) (by simp) hb0
    · -- decimal
      have hb0 : base0 tc (c0 :: t) = some (10, c0 :: t) := by
        unfold base0
        split
        · rename_i h; injection h with h _; exact absurd h hc0
        · rename_i h; injection h with h _; exact absurd h hc0
        · rfl
      have hok : underscoreOK (c0 :: t) = underscoreScan false .start (c0 :: t) := by
        unfold underscoreOK
        split
        · rename_i h; injection h with h _; exact absurd h hc0
        · rfl
      have hlit : GoLit tc.us (c0 :: t) v ↔
          ∃ d, BaseDigit 10 c0 d ∧ d ≠ 0 ∧ More tc.us 10 d t v := by
        constructor
        · intro h
          cases h with
          | dec h1 h2 h3 => exact ⟨_, h1, h2, h3⟩
          | oct h => exact absurd rfl hc0
          | hex => exact absurd rfl hc0
          | bin => exact absurd rfl hc0
          | oct' => exact absurd rfl hc0
        · rintro ⟨d, h1, h2, h3⟩; exact .dec h1 h2 h3
      rw [hlit]
      -- the first character must be a nonzero digit
      by_cases hd : ∃ d, d < 10 ∧ digitVal c0 = some d
      · obtain ⟨d, hd, hdv⟩ := hd
        have hcu : c0 ≠ '_' := by intro h; subst h; rw [digitVal_underscore] at hdv; simp at hdv
        have hsd : scanDigit false c0 := scanDigit_of_val (b := 10) (.inl (by omega)) hd hdv
        have h0 : d ≠ 0 := by
          intro h; subst h
          have := (baseDigit_iff 10 (by omega) c0 0).mpr ⟨hd, hdv⟩
          obtain ⟨_, h⟩ := this
          simp at h; exact hc0 h.symm
        have := gen false 10 (c0 :: t) (by omega) (by
          intro; rw [hok, scan_digit hsd, scan_digit hsd]) (by simp) hb0
        rw [this]
        have hbd := (baseDigit_iff 10 (by omega) c0 d).mpr ⟨hd, hdv⟩
        constructor
        · rintro ⟨h, hv⟩
          cases h with
          | digit h1 h2 =>
            have := ((baseDigit_iff 10 (by omega) _ _).mp h1).2
            rw [hdv] at this; injection this with this; subst this
            exact ⟨⟨d, h1, h0, by simpa using h2⟩, hv⟩
          | underscore => exact absurd rfl hcu
        · rintro ⟨⟨d', h1, h2, h3⟩, hv⟩
          exact ⟨.digit h1 (by simpa using h3), hv⟩
      · constructor
        · intro h
          exfalso
          simp only [parseUint0, hb0, List.cons_ne_nil, if_false] at h
          by_cases hcu : c0 = '_'
          · subst hcu
            cases tc with
            | pre113 => simp [parseLoop, digitVal_underscore] at h
            | since113 =>
              have : underscoreOK ('_' :: t) = false := by rw [hok, scan_underscore]; simp
              rw [this] at h
              split at h
              · simp at h
              · rename_i hne; exact hne _ h
          · rw [parseLoop] at h
            simp only [hcu, and_false, if_false] at h
            cases hdv : digitVal c0 with
            | none => simp [hdv] at h
            | some d =>
              have : 10 ≤ d := by
                rcases Nat.lt_or_ge d 10 with h | h
                · exact absurd ⟨d, h, hdv⟩ hd
                · exact h
              simp [hdv, this] at h
        · rintro ⟨⟨d, h1, _, _⟩, _⟩
          obtain ⟨h2, h3⟩ := (baseDigit_iff 10 (by omega) _ _).mp h1
          exact absurd ⟨d, h2, h3⟩ hd

/-- A failed unsigned parse gives 0 or the largest 32-bit number. -/
theorem parseUint0_err (tc : Toolchain) (s : Str) (v : Nat) (e : Err) (h : parseUint0 tc s = (v, some e)) :
    (e = .syntax ∧ v = 0) ∨ (e = .range ∧ v = 2 ^ 32 - 1) := by
  have loop : ∀ us b acc ds v e, parseLoop us b (2 ^ 32 - 1) acc ds = (v, some e) →
      (e = .syntax ∧ v = 0) ∨ (e = .range ∧ v = 2 ^ 32 - 1) := by
    intro us b acc ds
    induction ds generalizing acc with
    | nil => intro v e h; simp [parseLoop] at h
    | cons c t ih =>
      intro v e h
      rw [parseLoop] at h
      split at h
      · exact ih _ _ _ h
      · split at h
        · simp at h; exact .inl ⟨h.2.symm, h.1.symm⟩
        · split at h
          · simp at h; exact .inl ⟨h.2.symm, h.1.symm⟩
          · split at h
            · simp at h; right; exact ⟨h.2.symm, by omega⟩
            · exact ih _ _ _ h
  unfold parseUint0 at h
  split at h
  · simp at h; exact .inl ⟨h.2.symm, h.1.symm⟩
  · split at h
    · simp at h; exact .inl ⟨h.2.symm, h.1.symm⟩
    · split at h
      · split at h
        · simp at h; exact .inl ⟨h.2.symm, h.1.symm⟩
        · simp at h
      · exact loop _ _ _ _ _ _ h

end Log4g
