import Verif.Lemmas.RollPlans
import Verif.Lemmas.RollOps

/-! # Helpers for C113 -/

namespace Log4g
open Spec

variable {lib : RLib} {c : RCfg} {S : Prop}

theorem cuts_from (done : List (List Bytes)) (cur : List Bytes) (tr : STrace) :
    tr.foldl cutStep (done, cur) = (done ++ (cuts cur tr).1, (cuts cur tr).2) := by
  suffices h : ∀ done' : List (List Bytes), tr.foldl cutStep (done ++ done', cur) = (done ++ (tr.foldl cutStep (done', cur)).1, (tr.foldl cutStep (done', cur)).2) by
    simpa [cuts] using h []
  induction tr generalizing cur with
  | nil => intro done'; rfl
  | cons x tr ih =>
    intro done'
    rw [List.foldl_cons, List.foldl_cons]
    obtain ⟨o, r⟩ := x
    cases o <;> try exact ih cur done'
    case write => exact ih _ done'
    case rename =>
      cases r with
      | false => exact ih cur done'
      | true =>
        simp only [cutStep]
        rw [List.append_assoc]
        exact ih [] (done' ++ [cur])

theorem cuts_append (cur : List Bytes) (a b : STrace) :
    cuts cur (a ++ b) = ((cuts cur a).1 ++ (cuts (cuts cur a).2 b).1, (cuts (cuts cur a).2 b).2) := by
  rw [cuts, List.foldl_append]
  exact cuts_from _ _ _

theorem cuts_rolls (cur : List Bytes) (tr : STrace) : (cuts cur tr).1.length = rolls tr := by
  suffices h : ∀ s : List (List Bytes) × List Bytes, (tr.foldl cutStep s).1.length = s.1.length + rolls tr by
    simpa [cuts] using h ([], cur)
  induction tr with
  | nil => intro s; rfl
  | cons x tr ih =>
    intro s
    rw [List.foldl_cons, ih]
    obtain ⟨o, r⟩ := x
    cases o <;> try rfl
    case rename => cases r <;> simp [cutStep, rolls] <;> omega

/-- The first file begins with what the current file had. -/
theorem cuts_first (cur : List Bytes) (tr : STrace) :
    (∃ g rest, (cuts cur tr).1 = (cur ++ g) :: rest) ∨ ((cuts cur tr).1 = [] ∧ ∃ g, (cuts cur tr).2 = cur ++ g) := by
  induction tr generalizing cur with
  | nil => exact .inr ⟨rfl, [], by simp [cuts]⟩
  | cons x tr ih =>
    obtain ⟨o, r⟩ := x
    cases o <;> try exact ih cur
    case write n bs =>
      have hc : cuts cur (⟨.write n bs, r⟩ :: tr) = cuts (cur ++ [bs.take r.1]) tr := rfl
      rw [hc]
      rcases ih (cur ++ [bs.take r.1]) with ⟨g, rest, h⟩ | ⟨h1, g, h2⟩
      · exact .inl ⟨[bs.take r.1] ++ g, rest, by rw [h]; simp⟩
      · exact .inr ⟨h1, [bs.take r.1] ++ g, by rw [h2]; simp⟩
    case rename a b =>
      cases r with
      | false => exact ih cur
      | true =>
        have hc : cuts cur (⟨.rename a b, true⟩ :: tr) = (tr.foldl cutStep ([cur], [])) := rfl
        rw [hc, cuts_from]
        exact .inl ⟨[], (cuts [] tr).1, by simp⟩

theorem mem_of_suffix {α : Type} {A B D R : List α} {x : α} (h : D ++ R = A ++ x :: B) (hl : D = [] ∨ B.length < R.length) : x ∈ R := by
  rcases hl with rfl | hl
  · rw [show R = A ++ x :: B from h]; simp
  · rcases List.append_eq_append_iff.mp h with ⟨y, rfl, hr⟩ | ⟨y, rfl, hr⟩
    · rw [hr]; simp
    · cases y with
      | nil => simp only [List.nil_append] at hr; rw [← hr]; simp
      | cons z y =>
        injection hr with _ hr
        have hl' := congrArg List.length hr
        simp at hl'
        omega

theorem flatten_infix {g : List Bytes} {msg : Bytes} (h : msg ∈ g) : ∃ a b, g.flatten = a ++ msg ++ b := by
  obtain ⟨x, y, rfl⟩ := List.append_of_mem h
  exact ⟨x.flatten, y.flatten, by simp⟩

/-- A piece of the current file is there as long as there were no more rolls than backups are kept. -/
theorem Kept.retains {F0 : List Bytes × List Bytes} {hs : List Str} {t t3 : STrace} {d : Dir} (h : Kept lib c S F0 hs (t ++ t3) d) {msg : Bytes}
    (hm : msg ∈ (cuts F0.2 t).2) (hr : rolls t3 ≤ c.maxRolls) : InLog lib c d msg := by
  obtain ⟨old, recent, dr, rfl, h2, h3, _, _⟩ := h.keep
  have hcur := h.cur
  rw [cuts_append] at h2 hcur
  simp only at h2 hcur
  rcases cuts_first (cuts F0.2 t).2 t3 with ⟨g, rest, e⟩ | ⟨_, g, e⟩
  · have hlen := cuts_rolls (cuts F0.2 t).2 t3
    rw [e, List.length_cons] at hlen
    rw [e, List.map_append, List.map_cons, ← List.append_assoc] at h2
    have hmem := mem_of_suffix h2 (h3.imp_right fun h3 => by simp only [List.length_map]; omega)
    obtain ⟨n, hn, hd⟩ := List.mem_map.mp hmem
    obtain ⟨hb, data, p, hf⟩ := (h.backups.all n).mp (by simp [hn])
    rw [dataOf_file hf] at hd
    obtain ⟨a, b, hab⟩ := flatten_infix (g := (cuts F0.2 t).2 ++ g) (msg := msg) (by simp [hm])
    exact ⟨n, data, p, .inr hb, hf, a, b, by rw [hd, hab]⟩
  · obtain ⟨a, b, hab⟩ := flatten_infix (g := (cuts F0.2 t).2 ++ g) (msg := msg) (by simp [hm])
    rw [e] at hcur
    rcases hcur with ⟨_, hc⟩ | hc
    · rw [(List.append_eq_nil_iff.mp hc).1] at hm; cases hm
    · unfold current at hc
      split at hc
      · rename_i data p hf
        injection hc with hc
        exact ⟨c.fileName, data, p, .inl rfl, hf, a, b, by rw [hc, hab]⟩
      · cases hc

/-- A write that succeeds ends with the call that writes the message. -/
theorem write_last {umask : Nat} {rw rw' : RW} {bs : Bytes} {d d' : Disk} {tr : STrace} {n : Nat}
    (h : Runs umask (c.write lib rw bs) d tr ((n, true), rw') d') : ∃ t name, tr = t ++ [⟨.write name bs, (bs.length, true)⟩] := by
  obtain ⟨t1, b, rw1, d1, t2, rw2, d2, h1, h2⟩ := runs_write h
  rcases h2 with ⟨_, hr, rfl, hres, _⟩ | ⟨hr, t3, ha, rfl⟩
  · cases hres
  · rcases runs_append ha with ⟨_, hc, hres⟩ | ⟨t4, rw4, d4, t5, hc, hp, rfl⟩
    · cases hres
    · rcases runs_put hp with ⟨_, rfl, _, hs⟩ | ⟨_, rfl, hres, _⟩
      · obtain ⟨_, _, _, hle, hok, _⟩ := hs
        have hn : n = bs.length := hok rfl
        subst hn
        exact ⟨t1 ++ t2 ++ t4, rw4.name, by simp⟩
      · cases hres

theorem write_cuts {umask : Nat} {rw rw' : RW} {bs : Bytes} {d d' : Disk} {tr : STrace} {n : Nat}
    (h : Runs umask (c.write lib rw bs) d tr ((n, true), rw') d') (cur : List Bytes) (t1 : STrace) : bs ∈ (cuts cur (t1 ++ tr)).2 := by
  obtain ⟨t, name, rfl⟩ := write_last h
  rw [← List.append_assoc, cuts_snoc]
  simp [cutStep]

/-- Rolls take bytes. -/
theorem rolls_bytes {max : Int} {cur : List Bytes} {t t3 : STrace} (h : RolledFull max cur (t ++ t3)) :
    rolls t3 = 0 ∨ ((rolls t3 : Int) - 1) * max ≤ (chunks t3).flatten.length := by
  rcases cuts_first (cuts cur t).2 t3 with ⟨g, rest, e⟩ | ⟨e, _⟩
  · right
    have hlen := cuts_rolls (cuts cur t).2 t3
    have hch := cuts_chunks (cuts cur t).2 t3
    rw [e, List.length_cons] at hlen
    rw [e, List.flatten_cons, List.append_assoc, List.append_assoc] at hch
    have hch' := List.append_cancel_left hch
    have hfull : ∀ x ∈ rest, max ≤ (x.flatten.length : Int) := fun x hx => h x (by rw [cuts_append, e]; simp [hx])
    have hsum : (rest.length : Int) * max ≤ (rest.flatten.flatten.length : Int) := by
      clear hlen hch hch' e
      induction rest with
      | nil => simp
      | cons x xs ih =>
        have h1 := hfull x (by simp)
        have h2 := ih fun y hy => hfull y (by simp [hy])
        simp only [List.length_cons, List.flatten_cons, List.flatten_append, List.length_append, Int.natCast_add, Int.add_mul, Int.one_mul, Int.natCast_one]
        omega
    have : ((rolls t3 : Int) - 1) = rest.length := by omega
    rw [this, ← hch']
    simp only [List.flatten_append, List.length_append, Int.natCast_add]
    omega
  · left
    rw [← cuts_rolls (cuts cur t).2 t3, e]; rfl

end Log4g
