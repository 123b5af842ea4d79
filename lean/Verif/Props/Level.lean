import Verif.Lemmas.Level

/-! # C01, C02: level names -/

namespace Log4g
open Spec Level

/-- **C01.** For every iteration order of the name table, `LevelFrom` answers `l ≠ Uninitialized`
exactly when `s` is, up to letter case, the documented name of `l`, and `Uninitialized` (0)
exactly when `s` is no level name. -/
theorem C01_levelFrom (order : Map Level Str) (hp : order.Perm levelStrings) (s : Str) (l : Int) :
    LevelFrom order s = l ↔
      (∃ name short, (l, name, short) ∈ Spec.levels ∧ SameName s name) ∨
      (l = 0 ∧ ∀ l' name short, (l', name, short) ∈ Spec.levels → ¬ SameName s name) := by
  exact levelFrom_named order hp s l

/-- Non-vacuity of C01: a reversed table, a name in mixed case, and a string that is no name. -/
example : levelStrings.reverse.Perm levelStrings ∧ SameName c!"eRror" c!"ERROR" ∧
    LevelFrom levelStrings.reverse c!"eRror" = 6 ∧ LevelFrom levelStrings.reverse c!"xx" = 0 := by
  refine ⟨List.reverse_perm _, ?_, by decide, by decide⟩
  exact .cons (.small 'E' rfl) (.cons (.same _) (.cons (.small 'R' rfl)
    (.cons (.small 'O' rfl) (.cons (.small 'R' rfl) .nil))))

/-- **C02.** `String` and `ShortStr` are the documented names on the documented levels and empty on
every other integer; names of distinct levels are distinct; parsing a printed level gives it back,
whatever the iteration order. -/
theorem C02_names_roundtrip :
    (∀ l name short, (l, name, short) ∈ Spec.levels →
        toStr l = name ∧ shortStr l = short ∧
        ∀ order, order.Perm levelStrings → LevelFrom order (toStr l) = l) ∧
    (∀ l : Int, l < 1 ∨ 8 < l → toStr l = [] ∧ shortStr l = []) ∧
    (∀ l l' : Int, 1 ≤ l → l ≤ 8 → 1 ≤ l' → l' ≤ 8 →
        (toStr l = toStr l' → l = l') ∧ (shortStr l = shortStr l' → l = l')) := by
  refine ⟨?_, ?_, ?_⟩
  · intro l name short h
    simp only [Spec.levels, List.mem_cons, Prod.mk.injEq, List.not_mem_nil, or_false] at h
    rcases h with ⟨rfl, rfl, rfl⟩ | ⟨rfl, rfl, rfl⟩ | ⟨rfl, rfl, rfl⟩ | ⟨rfl, rfl, rfl⟩ |
      ⟨rfl, rfl, rfl⟩ | ⟨rfl, rfl, rfl⟩ | ⟨rfl, rfl, rfl⟩ | ⟨rfl, rfl, rfl⟩ <;>
    exact ⟨by decide, by decide, fun order hp => by rw [LevelFrom_perm order hp]; decide⟩
  · intro l h
    have : ∀ k : Int, 1 ≤ k → k ≤ 8 → ¬ k = l := by omega
    simp [toStr, shortStr, levelStrings, lvlStrings, Map.get, All, Trace, Debug, Info, Warn, Error,
      Critical, Off, this]
  · intro l l' h1 h2 h3 h4
    have h : ∀ l : Int, 1 ≤ l → l ≤ 8 →
        l = 1 ∨ l = 2 ∨ l = 3 ∨ l = 4 ∨ l = 5 ∨ l = 6 ∨ l = 7 ∨ l = 8 := by omega
    rcases h l h1 h2 with rfl | rfl | rfl | rfl | rfl | rfl | rfl | rfl <;>
    rcases h l' h3 h4 with rfl | rfl | rfl | rfl | rfl | rfl | rfl | rfl <;> decide

/-- Non-vacuity of C02: there are documented levels, and integers outside them. -/
example : ((6 : Int), c!"ERROR", c!"ERR") ∈ Spec.levels ∧ toStr 6 = c!"ERROR" ∧ toStr 42 = [] := by
  decide

end Log4g
