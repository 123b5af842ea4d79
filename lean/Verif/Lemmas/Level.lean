import Verif.Model.Level
import Verif.Spec.Level
import Verif.Lemmas.Map

namespace Log4g.Level
open Spec

/-- The ASCII capitals. -/
def caps : List Char := c!"ABCDEFGHIJKLMNOPQRSTUVWXYZ"

theorem goUpper_iff (c d : Char) (hd : d ∈ caps) : goUpper c = d ↔ CaseOf c d := by
  constructor
  · intro h
    unfold goUpper at h
    cases hg : Map.get upperTable c with
    | none => simp [hg] at h; subst h; exact .same c
    | some e =>
      simp [hg] at h
      subst h
      have hm := Map.mem_of_get hg
      have key : ∀ p ∈ upperTable, CaseOf p.1 p.2 := by
        simp only [upperTable, List.forall_mem_cons]
        refine ⟨.small 'A' rfl, .small 'B' rfl, .small 'C' rfl, .small 'D' rfl, .small 'E' rfl,
          .small 'F' rfl, .small 'G' rfl, .small 'H' rfl, .small 'I' rfl, .small 'J' rfl,
          .small 'K' rfl, .small 'L' rfl, .small 'M' rfl, .small 'N' rfl, .small 'O' rfl,
          .small 'P' rfl, .small 'Q' rfl, .small 'R' rfl, .small 'S' rfl, .small 'T' rfl,
          .small 'U' rfl, .small 'V' rfl, .small 'W' rfl, .small 'X' rfl, .small 'Y' rfl,
          .small 'Z' rfl, .dotless, .longS, by simp⟩
      exact key _ hm
  · intro h
    have h1 : ∀ d ∈ caps, goUpper d = d := by decide
    have h2 : ∀ d ∈ caps, goUpper d.toLower = d := by decide
    cases h with
    | same => exact h1 _ hd
    | small _ _ => exact h2 _ hd
    | dotless => decide
    | longS => decide

theorem toUpper_iff (s n : Str) (hn : ∀ d ∈ n, d ∈ caps) : toUpper s = n ↔ SameName s n := by
  induction s generalizing n with
  | nil =>
    constructor
    · intro h; simp [toUpper] at h; subst h; exact .nil
    · intro h; cases h; rfl
  | cons c s ih =>
    cases n with
    | nil =>
      constructor
      · intro h; simp [toUpper] at h
      · intro h; cases h
    | cons d n =>
      have h1 := goUpper_iff c d (hn d (by simp))
      have h2 := ih n (fun x hx => hn x (by simp [hx]))
      constructor
      · intro h
        simp only [toUpper, List.map_cons, List.cons.injEq] at h
        exact .cons (h1.mp h.1) (h2.mp h.2)
      · intro h
        cases h with
        | cons a b =>
          simp only [toUpper, List.map_cons, List.cons.injEq]
          exact ⟨h1.mpr a, h2.mpr b⟩

/-- Level names are spelled in ASCII capitals. -/
theorem names_caps : ∀ p ∈ levelStrings, ∀ d ∈ p.2, d ∈ caps := by decide

/-- In a table without repeated names the search result does not depend on the order. -/
theorem LevelFrom_eq_iff (order : Map Level Str) (s : Str) (l : Level)
    (nz : ∀ p ∈ order, p.1 ≠ 0)
    (inj : ∀ p ∈ order, ∀ q ∈ order, p.2 = q.2 → p = q) :
    LevelFrom order s = l ↔
      (l, toUpper s) ∈ order ∨ (l = 0 ∧ ∀ p ∈ order, p.2 ≠ toUpper s) := by
  induction order with
  | nil => simp [LevelFrom, Uninitialized, eq_comm]
  | cons p rest ih =>
    obtain ⟨k, v⟩ := p
    have ih' := ih (fun p hp => nz p (by simp [hp]))
      (fun p hp q hq => inj p (by simp [hp]) q (by simp [hq]))
    simp only [LevelFrom]
    by_cases h : toUpper s = v
    · simp only [h, if_true]
      constructor
      · intro e; left; simp [← e]
      · rintro (h1 | ⟨_, h2⟩)
        · have := inj (k, v) (by simp) (l, v) h1 rfl
          exact (Prod.mk.inj this).1
        · exact absurd rfl (h2 (k, v) (by simp))
    · simp only [h, if_false, ih']
      constructor
      · rintro (h1 | ⟨h1, h2⟩)
        · left; simp [h1]
        · right
          refine ⟨h1, ?_⟩
          intro p hp
          rcases List.mem_cons.mp hp with hp | hp
          · subst hp; exact fun e => h e.symm
          · exact h2 p hp
      · rintro (h1 | ⟨h1, h2⟩)
        · rcases List.mem_cons.mp h1 with h1 | h1
          · injection h1 with _ h1; exact absurd h1 h
          · left; exact h1
        · right; exact ⟨h1, fun p hp => h2 p (by simp [hp])⟩

theorem levelStrings_nz : ∀ p ∈ levelStrings, p.1 ≠ 0 := by decide
theorem levelStrings_inj : ∀ p ∈ levelStrings, ∀ q ∈ levelStrings, p.2 = q.2 → p = q := by decide

theorem LevelFrom_perm (order : Map Level Str) (hp : order.Perm levelStrings) (s : Str) :
    LevelFrom order s = levelFrom s := by
  rw [LevelFrom_eq_iff order s _ (fun p h => levelStrings_nz p (hp.mem_iff.mp h))
    (fun p h q h' => levelStrings_inj p (hp.mem_iff.mp h) q (hp.mem_iff.mp h'))]
  have := (LevelFrom_eq_iff levelStrings s (levelFrom s) levelStrings_nz levelStrings_inj).mp rfl
  rcases this with h | ⟨h1, h2⟩
  · left; exact hp.mem_iff.mpr h
  · right; exact ⟨h1, fun p h => h2 p (hp.mem_iff.mp h)⟩


theorem levelFrom_named (order : Map Level Str) (hp : order.Perm levelStrings) (s : Str) (l : Int) :
    LevelFrom order s = l ↔ LevelNamed s l := by
  rw [LevelFrom_perm order hp]
  have key := LevelFrom_eq_iff levelStrings s l levelStrings_nz levelStrings_inj
  rw [levelFrom, key]
  have hmem : ∀ (l' : Int) name, (l', name) ∈ levelStrings ↔
      ∃ short, (l', name, short) ∈ Spec.levels := by
    intro l' name
    simp [levelStrings, Spec.levels, All, Trace, Debug, Info, Warn, Error, Critical, Off]
    constructor
    · rintro (⟨h1, h2⟩ | ⟨h1, h2⟩ | ⟨h1, h2⟩ | ⟨h1, h2⟩ | ⟨h1, h2⟩ | ⟨h1, h2⟩ | ⟨h1, h2⟩ | ⟨h1, h2⟩)
        <;> simp [h1, h2]
    · rintro ⟨_, (⟨h1, h2, _⟩ | ⟨h1, h2, _⟩ | ⟨h1, h2, _⟩ | ⟨h1, h2, _⟩ | ⟨h1, h2, _⟩ | ⟨h1, h2, _⟩ |
        ⟨h1, h2, _⟩ | ⟨h1, h2, _⟩)⟩ <;> simp [h1, h2]
  constructor
  · rintro (h | ⟨h0, h⟩)
    · left
      obtain ⟨short, hs⟩ := (hmem l (toUpper s)).mp h
      exact ⟨_, short, hs, (toUpper_iff s _ (names_caps _ h)).mp rfl⟩
    · right
      refine ⟨h0, ?_⟩
      intro l' name short hm hsame
      have hm' := (hmem l' name).mpr ⟨short, hm⟩
      exact h _ hm' ((toUpper_iff s name (names_caps _ hm')).mpr hsame).symm
  · rintro (⟨name, short, hm, hs⟩ | ⟨h0, h⟩)
    · left
      have hm' := (hmem l name).mpr ⟨short, hm⟩
      rw [(toUpper_iff s name (names_caps _ hm')).mpr hs]; exact hm'
    · right
      refine ⟨h0, ?_⟩
      intro p hp' e
      obtain ⟨k, v⟩ := p
      obtain ⟨short, hs⟩ := (hmem k v).mp hp'
      exact h k v short hs ((toUpper_iff s v (names_caps _ hp')).mp e.symm)


theorem named_levelFrom (s : Str) : LevelNamed s (levelFrom s) := (levelFrom_named levelStrings (List.Perm.refl _) s _).mp rfl

theorem named_unique {s : Str} {l l' : Int} (h : LevelNamed s l) (h' : LevelNamed s l') : l = l' :=
  ((levelFrom_named levelStrings (List.Perm.refl _) s _).mpr h).symm.trans ((levelFrom_named levelStrings (List.Perm.refl _) s _).mpr h')

end Log4g.Level
