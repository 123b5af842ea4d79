import Verif.Model.Basic

/-! Lemmas about association-list maps. -/

namespace Log4g.Map
variable {κ α : Type} [DecidableEq κ]

@[simp] theorem get_nil (k : κ) : get ([] : Map κ α) k = none := rfl

@[simp] theorem get_set_self (m : Map κ α) (k : κ) (v : α) : get (set m k v) k = some v := by
  induction m with
  | nil => simp [set, get]
  | cons p m ih =>
    obtain ⟨k', v'⟩ := p
    by_cases h : k' = k <;> simp [set, get, h, ih]

theorem get_set_ne (m : Map κ α) {k k' : κ} (v : α) (h : k ≠ k') :
    get (set m k v) k' = get m k' := by
  induction m with
  | nil => simp [set, get, h]
  | cons p m ih =>
    obtain ⟨k0, v0⟩ := p
    by_cases h0 : k0 = k
    · subst h0; simp [set, get, h]
    · by_cases h1 : k0 = k'
      · subst h1; simp [set, get, h0]
      · simp [set, get, h0, h1, ih]

theorem get_set (m : Map κ α) (k k' : κ) (v : α) :
    get (set m k v) k' = if k = k' then some v else get m k' := by
  by_cases h : k = k'
  · subst h; simp
  · simp [h, get_set_ne m v h]

theorem get_eq_none_iff (m : Map κ α) (k : κ) : get m k = none ↔ k ∉ keys m := by
  induction m with
  | nil => simp [keys]
  | cons p m ih =>
    obtain ⟨k', v'⟩ := p
    by_cases h : k' = k
    · simp [get, keys, h]
    · have : ¬ k = k' := fun e => h e.symm
      simp [get, keys, h, this] at *
      exact ih

theorem has_iff (m : Map κ α) (k : κ) : has m k = true ↔ k ∈ keys m := by
  have := get_eq_none_iff m k
  unfold has
  cases h : get m k <;> simp_all

theorem get_isSome_iff (m : Map κ α) (k : κ) : (get m k).isSome = true ↔ k ∈ keys m := has_iff m k

theorem mem_keys_of_get {m : Map κ α} {k : κ} {v : α} (h : get m k = some v) : k ∈ keys m := by
  rw [← has_iff]; simp [has, h]

theorem exists_get_of_mem_keys {m : Map κ α} {k : κ} (h : k ∈ keys m) : ∃ v, get m k = some v := by
  rw [← has_iff] at h
  unfold has at h
  exact Option.isSome_iff_exists.mp h

theorem mem_of_get {m : Map κ α} {k : κ} {v : α} (h : get m k = some v) : (k, v) ∈ m := by
  induction m with
  | nil => simp at h
  | cons p m ih =>
    obtain ⟨k', v'⟩ := p
    by_cases h' : k' = k
    · simp [get, h'] at h; simp [h', h]
    · simp [get, h'] at h; simp [ih h]

theorem get_of_mem {m : Map κ α} (nd : (keys m).Nodup) {k : κ} {v : α} (h : (k, v) ∈ m) :
    get m k = some v := by
  induction m with
  | nil => simp at h
  | cons p m ih =>
    obtain ⟨k', v'⟩ := p
    simp [keys] at nd
    rcases List.mem_cons.mp h with h | h
    · injection h with h1 h2; simp [get, h1, h2]
    · by_cases hk : k' = k
      · subst hk; exact absurd h (nd.1 v)
      · simp [get, hk]; exact ih nd.2 h

theorem mem_keys_set (m : Map κ α) (k k' : κ) (v : α) :
    k' ∈ keys (set m k v) ↔ k' = k ∨ k' ∈ keys m := by
  rw [← has_iff, ← has_iff]
  unfold has
  rw [get_set]
  by_cases h : k = k'
  · simp [h]
  · simp [h, Ne.symm h]

theorem keys_set_of_mem (m : Map κ α) {k : κ} (v : α) (h : k ∈ keys m) :
    keys (set m k v) = keys m := by
  induction m with
  | nil => simp [keys] at h
  | cons p m ih =>
    obtain ⟨k', v'⟩ := p
    by_cases h' : k' = k
    · simp [set, keys, h']
    · simp [keys] at h ih ⊢
      have h2 : ∃ x, (k, x) ∈ m := by
        rcases h with h | h
        · exact absurd h.symm h'
        · exact h
      obtain ⟨x, h2⟩ := h2
      simp [set, h', ih x h2]

theorem keys_set_of_not_mem (m : Map κ α) {k : κ} (v : α) (h : k ∉ keys m) :
    keys (set m k v) = keys m ++ [k] := by
  induction m with
  | nil => simp [set, keys]
  | cons p m ih =>
    obtain ⟨k', v'⟩ := p
    simp only [keys, List.map_cons, List.mem_cons, not_or] at h ih ⊢
    have : ¬ k' = k := fun e => h.1 e.symm
    simp [set, this, ih h.2]

theorem nodup_keys_set (m : Map κ α) (k : κ) (v : α) (nd : (keys m).Nodup) :
    (keys (set m k v)).Nodup := by
  by_cases h : k ∈ keys m
  · rw [keys_set_of_mem m v h]; exact nd
  · rw [keys_set_of_not_mem m v h]
    rw [List.nodup_append]
    refine ⟨nd, by simp, ?_⟩
    intro a ha b hb
    simp at hb
    subst hb
    exact fun e => h (e ▸ ha)

end Log4g.Map
