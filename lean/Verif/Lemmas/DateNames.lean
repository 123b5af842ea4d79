import Verif.Spec.DateNames
import Verif.Lemmas.GoTime
import Verif.Lemmas.RollTimes

/-! # Which names are read as dates -/

namespace Log4g
open Spec Strconv GoTime
open scoped List

theorem digit_some {a : Char} {x : Nat} (h : digit a = some x) : a = digitChar x ∧ x < 10 ∧ '0' ≤ a ∧ a ≤ '9' := by
  unfold digit at h
  split at h
  · rename_i hh
    cases h
    refine ⟨?_, by omega, ?_, ?_⟩
    · unfold digitChar
      rw [show 48 + (a.toNat - 48) = a.toNat by omega, Char.ofNat_toNat]
    · show (48 : Nat) ≤ a.toNat; exact hh.1
    · show a.toNat ≤ 57; exact hh.2
  · cases h

theorem getnum_fixed {v rest : Str} {n : Nat} (h : getnum true v = some (n, rest)) : v = twoDigits n ++ rest ∧ n < 100 := by
  unfold getnum at h
  split at h
  · cases h
  · rename_i a s
    split at h
    · cases h
    · simp at h
    · rename_i x b s hx
      split at h
      · rename_i y hy
        cases h
        obtain ⟨e1, l1, _⟩ := digit_some hx
        obtain ⟨e2, l2, _⟩ := digit_some hy
        refine ⟨?_, by omega⟩
        simp only [twoDigits, List.cons_append, List.nil_append]
        rw [show (x * 10 + y) / 10 % 10 = x by omega, show (x * 10 + y) % 10 = y by omega, ← e1, ← e2]
      · simp at h

theorem getnum_free {v rest : Str} {n : Nat} (h : getnum false v = some (n, rest)) :
    (v = twoDigits n ++ rest ∧ n < 100) ∨ (v = [digitChar n] ++ rest ∧ n < 10) := by
  unfold getnum at h
  split at h
  · cases h
  · rename_i a s
    split at h
    · cases h
    · rename_i x hx
      simp only [Bool.false_eq_true, if_false, Option.some.injEq, Prod.mk.injEq] at h
      obtain ⟨rfl, rfl⟩ := h
      obtain ⟨e1, l1, _⟩ := digit_some hx
      right; rw [e1]; exact ⟨rfl, l1⟩
    · rename_i x b s hx
      obtain ⟨e1, l1, _⟩ := digit_some hx
      split at h
      · rename_i y hy
        cases h
        obtain ⟨e2, l2, _⟩ := digit_some hy
        left
        refine ⟨?_, by omega⟩
        simp only [twoDigits, List.cons_append, List.nil_append]
        rw [show (x * 10 + y) / 10 % 10 = x by omega, show (x * 10 + y) % 10 = y by omega, ← e1, ← e2]
      · simp only [Bool.false_eq_true, if_false, Option.some.injEq, Prod.mk.injEq] at h
        obtain ⟨rfl, rfl⟩ := h
        right; rw [e1]; exact ⟨rfl, l1⟩

theorem fraction_some {v ds rest : Str} (h : fraction v = (ds, rest)) :
    (ds = [] ∧ rest = v) ∨ (ds ≠ [] ∧ v = '.' :: ds ++ rest ∧ ∀ x ∈ ds, '0' ≤ x ∧ x ≤ '9') := by
  unfold fraction at h
  split at h
  · rename_i a s
    split at h
    · rename_i ha
      simp only [Prod.mk.injEq] at h
      obtain ⟨rfl, rfl⟩ := h
      right
      refine ⟨by simp [ha], by simp [List.takeWhile_append_dropWhile], ?_⟩
      intro x hx
      have := List.all_takeWhile (l := a :: s) (p := fun c => (digit c).isSome)
      rw [List.all_eq_true] at this
      have := this x hx
      obtain ⟨y, hy⟩ := Option.isSome_iff_exists.mp this
      exact (digit_some hy).2.2
    · cases h; exact .inl ⟨rfl, rfl⟩
  · cases h; exact .inl ⟨rfl, rfl⟩

/-- The value of a field. -/
def Spec.Field6.of : Field6 → Civil → Int
  | .year, c => c.year | .month, c => c.month | .day, c => c.day | .hour, c => c.hour | .minute, c => c.minute | .second, c => c.second

/-- What every part of a date read so far meets. -/
structure ReadOk (c : Civil) : Prop where
  year : 0 ≤ c.year ∧ c.year < 10000
  month : 1 ≤ c.month ∧ c.month ≤ 12
  day : c.day < 100
  hour : c.hour < 24
  minute : c.minute < 60
  second : c.second < 60

theorem year_digits {a b c d : Char} {w x y z : Nat} (h1 : digit a = some w) (h2 : digit b = some x) (h3 : digit c = some y) (h4 : digit d = some z) :
    [a, b, c, d] = fourDigits (((w * 10 + x) * 10 + y) * 10 + z) ∧ (((w * 10 + x) * 10 + y) * 10 + z) < 10000 := by
  obtain ⟨e1, l1, _⟩ := digit_some h1
  obtain ⟨e2, l2, _⟩ := digit_some h2
  obtain ⟨e3, l3, _⟩ := digit_some h3
  obtain ⟨e4, l4, _⟩ := digit_some h4
  refine ⟨?_, by omega⟩
  simp only [fourDigits, twoDigits, List.cons_append, List.nil_append]
  rw [show (((w * 10 + x) * 10 + y) * 10 + z) / 100 / 10 % 10 = w by omega, show (((w * 10 + x) * 10 + y) * 10 + z) / 100 % 10 = x by omega,
    show (((w * 10 + x) * 10 + y) * 10 + z) / 10 % 10 = y by omega, show (((w * 10 + x) * 10 + y) * 10 + z) % 10 = z by omega, ← e1, ← e2, ← e3, ← e4]

theorem parse_lit {x : Char} (hx : x ≠ ' ') {sp : Bool} {es : List Elem} {v : Str} {f r : Read} (h : parseElems sp (.lit x :: es) v f = some r) :
    ∃ v', v = x :: v' ∧ parseElems false es v' f = some r := by
  rw [parseElems.eq_def] at h
  split at h
  · contradiction
  · rename_i e; simp only [List.cons.injEq, Elem.lit.injEq] at e; exact absurd e.1 hx
  · rename_i e
    simp only [List.cons.injEq, Elem.lit.injEq] at e
    obtain ⟨rfl, rfl⟩ := e
    split at h
    · split at h
      · rename_i e; subst e; exact ⟨_, rfl, h⟩
      · cases h
    · cases h
  all_goals rename_i e; simp at e

theorem parse_written (ps : List DatePiece) (hone : ∀ f, ps.count (.field f) ≤ 1) {sp : Bool} {v : Str} {f r : Read}
    (h : parseElems sp (ps.map Spec.DatePiece.elem) v f = some r) (hf : ReadOk f.civil) :
    ReadOk r.civil ∧ WrittenAs r.civil ps v ∧ ∀ g, .field g ∉ ps → g.of r.civil = g.of f.civil := by
  induction ps generalizing sp v f with
  | nil =>
    simp only [List.map_nil, parseElems] at h
    split at h
    · rename_i hv; cases h; subst hv; exact ⟨hf, .nil, fun _ _ => rfl⟩
    · cases h
  | cons p ps ih =>
    have hone' : ∀ f, ps.count (.field f) ≤ 1 := fun f => Nat.le_trans (List.count_le_count_cons) (hone f)
    have hnot : ∀ g, p = .field g → .field g ∉ ps := by
      rintro g rfl hm
      have := hone g
      rw [List.count_cons_self] at this
      have := List.count_pos_iff.mpr hm
      omega
    rw [List.map_cons] at h
    rcases p with (_ | _ | _ | _ | _ | _) | x
    · simp only [Spec.DatePiece.elem, parseElems] at h
      split at h
      · rename_i a b c d v
        split at h
        · rename_i w x y z h1 h2 h3 h4
          obtain ⟨e, l⟩ := year_digits h1 h2 h3 h4
          obtain ⟨k1, k2, k3⟩ := ih hone' h { hf with year := ⟨by simp only []; omega, by simp only []; omega⟩ }
          have ky := k3 .year (hnot _ rfl)
          simp only [Spec.Field6.of] at ky
          refine ⟨k1, ?_, fun g hg => ?_⟩
          · have := WrittenAs.cons (.usual (.field .year)) k2
            simp only [DatePiece.at, ky, Int.toNat_natCast, ← e, List.cons_append, List.nil_append] at this
            exact this
          · rw [k3 g (fun hm => hg (List.mem_cons_of_mem _ hm))]
            cases g <;> first | rfl | exact absurd (List.mem_cons_self ..) hg
        · cases h
      · cases h
    · simp only [Spec.DatePiece.elem, parseElems] at h
      split at h
      · rename_i n v' hg
        obtain ⟨rfl, l⟩ := getnum_fixed hg
        split at h
        · cases h
        · obtain ⟨k1, k2, k3⟩ := ih hone' h { hf with month := by simp only []; omega }
          have ky := k3 .month (hnot _ rfl)
          simp only [Spec.Field6.of, Int.natCast_inj] at ky
          refine ⟨k1, ?_, fun g hg => ?_⟩
          · have := WrittenAs.cons (.usual (.field .month)) k2
            simp only [DatePiece.at, ky] at this
            exact this
          · rw [k3 g (fun hm => hg (List.mem_cons_of_mem _ hm))]
            cases g <;> first | rfl | exact absurd (List.mem_cons_self ..) hg
      · cases h
    · simp only [Spec.DatePiece.elem, parseElems] at h
      split at h
      · rename_i n v' hg
        obtain ⟨rfl, l⟩ := getnum_fixed hg
        obtain ⟨k1, k2, k3⟩ := ih hone' h { hf with day := l }
        have ky := k3 .day (hnot _ rfl)
        simp only [Spec.Field6.of, Int.natCast_inj] at ky
        refine ⟨k1, ?_, fun g hg => ?_⟩
        · have := WrittenAs.cons (.usual (.field .day)) k2
          simp only [DatePiece.at, ky] at this
          exact this
        · rw [k3 g (fun hm => hg (List.mem_cons_of_mem _ hm))]
          cases g <;> first | rfl | exact absurd (List.mem_cons_self ..) hg
      · cases h
    · simp only [Spec.DatePiece.elem, parseElems] at h
      split at h
      · rename_i n v' hg
        split at h
        · cases h
        · rename_i hn
          obtain ⟨k1, k2, k3⟩ := ih hone' h { hf with hour := by simp only []; omega }
          have ky := k3 .hour (hnot _ rfl)
          simp only [Spec.Field6.of, Int.natCast_inj] at ky
          refine ⟨k1, ?_, fun g hg => ?_⟩
          · rcases getnum_free hg with ⟨rfl, l⟩ | ⟨rfl, l⟩
            · have := WrittenAs.cons (.usual (.field .hour)) k2
              simp only [DatePiece.at, ky] at this
              exact this
            · have := WrittenAs.cons (.hour (by rw [ky]; exact l)) k2
              rw [ky] at this
              exact this
          · rw [k3 g (fun hm => hg (List.mem_cons_of_mem _ hm))]
            cases g <;> first | rfl | exact absurd (List.mem_cons_self ..) hg
      · cases h
    · simp only [Spec.DatePiece.elem, parseElems] at h
      split at h
      · rename_i n v' hg
        obtain ⟨rfl, l⟩ := getnum_fixed hg
        split at h
        · cases h
        · obtain ⟨k1, k2, k3⟩ := ih hone' h { hf with minute := by simp only []; omega }
          have ky := k3 .minute (hnot _ rfl)
          simp only [Spec.Field6.of, Int.natCast_inj] at ky
          refine ⟨k1, ?_, fun g hg => ?_⟩
          · have := WrittenAs.cons (.usual (.field .minute)) k2
            simp only [DatePiece.at, ky] at this
            exact this
          · rw [k3 g (fun hm => hg (List.mem_cons_of_mem _ hm))]
            cases g <;> first | rfl | exact absurd (List.mem_cons_self ..) hg
      · cases h
    · simp only [Spec.DatePiece.elem, parseElems] at h
      split at h
      · rename_i n v' hg
        obtain ⟨rfl, l⟩ := getnum_fixed hg
        split at h
        · cases h
        · rename_i hn
          split at h
          · rename_i v2 hfr
            obtain ⟨k1, k2, k3⟩ := ih hone' h { hf with second := by simp only []; omega }
            have ky := k3 .second (hnot _ rfl)
            simp only [Spec.Field6.of, Int.natCast_inj] at ky
            refine ⟨k1, ?_, fun g hg => ?_⟩
            · rcases fraction_some hfr with ⟨_, rfl⟩ | ⟨h0, _⟩
              · have := WrittenAs.cons (.usual (.field .second)) k2
                simp only [DatePiece.at, ky] at this
                exact this
              · exact absurd rfl h0
            · rw [k3 g (fun hm => hg (List.mem_cons_of_mem _ hm))]
              cases g <;> first | rfl | exact absurd (List.mem_cons_self ..) hg
          · rename_i ds v2 hds hfr
            split at h
            · cases h
            · obtain ⟨k1, k2, k3⟩ := ih hone' h { hf with second := by simp only []; omega }
              have ky := k3 .second (hnot _ rfl)
              simp only [Spec.Field6.of, Int.natCast_inj] at ky
              refine ⟨k1, ?_, fun g hg => ?_⟩
              · rcases fraction_some hfr with ⟨h0, _⟩ | ⟨h0, rfl, hall⟩
                · exact absurd h0 (by simpa using hds)
                · have := WrittenAs.cons (.fraction h0 hall) k2
                  simp only [ky, List.append_assoc, List.cons_append] at this
                  simpa using this
              · rw [k3 g (fun hm => hg (List.mem_cons_of_mem _ hm))]
                cases g <;> first | rfl | exact absurd (List.mem_cons_self ..) hg
      · cases h
    · by_cases hx : x = ' '
      · subst hx
        simp only [Spec.DatePiece.elem, parseElems] at h
        split at h
        · obtain ⟨k1, k2, k3⟩ := ih hone' h hf
          exact ⟨k1, by simpa using WrittenAs.cons (.blanks 0) k2, fun g hg => k3 g fun hm => hg (List.mem_cons_of_mem _ hm)⟩
        · split at h
          · cases h
          · obtain ⟨k1, k2, k3⟩ := ih hone' h hf
            refine ⟨k1, ?_, fun g hg => k3 g fun hm => hg (List.mem_cons_of_mem _ hm)⟩
            have e : v.takeWhile (· = ' ') = List.replicate (v.takeWhile (· = ' ')).length ' ' := by
              rw [List.eq_replicate_iff]
              refine ⟨rfl, fun y hy => ?_⟩
              have := List.all_takeWhile (l := v) (p := fun c => decide (c = ' '))
              rw [List.all_eq_true] at this
              simpa using this y hy
            have := WrittenAs.cons (.blanks (v.takeWhile (· = ' ')).length) k2
            rw [← e, List.takeWhile_append_dropWhile] at this
            exact this
      · simp only [Spec.DatePiece.elem] at h
        obtain ⟨v, rfl, g⟩ := parse_lit hx h
        obtain ⟨k1, k2, k3⟩ := ih hone' g hf
        exact ⟨k1, .cons (.usual (.sep x)) k2, fun g hg => k3 g fun hm => hg (List.mem_cons_of_mem _ hm)⟩

theorem read_written {ps : List DatePiece} (hp : PlainPattern ps) {z : Zone} {other : RLib} {v : Str} {t : Int}
    (h : (library z other).parse (patternText ps) v = some t) : ∃ c, ProperDate c ∧ WrittenAs c ps v := by
  simp only [library, scan_pattern ps hp.seps, Zone.parse] at h
  split at h
  · cases h
  · rename_i r hr
    split at h
    · cases h
    · rename_i hd
      obtain ⟨k1, k2, _⟩ := parse_written ps hp.once hr ⟨by decide, by decide, by decide, by decide, by decide, by decide⟩
      refine ⟨r.civil, ⟨⟨k1.month.1, k1.month.2, by omega, ⟨_, monthLengths_get _ k1.month.1 k1.month.2, by omega⟩, k1.hour, k1.minute, k1.second⟩, k1.year⟩, k2⟩

theorem written_usual {ps : List DatePiece} (hh : .field .hour ∉ ps) (hs : .field .second ∉ ps) (hb : .sep ' ' ∉ ps) {c : Civil} {v : Str} (h : WrittenAs c ps v) : v = nameAt ps c := by
  induction h with
  | nil => rfl
  | @cons p ps s v hw _ ih =>
    rw [nameAt_cons, ih (fun h => hh (by simp [h])) (fun h => hs (by simp [h])) (fun h => hb (by simp [h]))]
    cases hw with
    | usual => rfl
    | hour => simp at hh
    | fraction => simp at hs
    | blanks => simp at hb

theorem usual_written (c : Civil) (ps : List DatePiece) : WrittenAs c ps (nameAt ps c) := by
  induction ps with
  | nil => exact .nil
  | cons p ps ih => rw [nameAt_cons]; exact .cons (.usual p) ih

/-! ## Which files are touched -/

variable {lib : RLib} {c : RCfg} {umask : Nat}

theorem touch_append {own : Str → Prop} (hcur : own c.fileName) {bs : Bytes} {rw : RW} (h : rw.file = some .opened → rw.name = c.fileName) : (c.append rw bs).All (touchOp own) := by
  have hput : ∀ rw1 : RW, (rw1.file = some .opened → rw1.name = c.fileName) → (RCfg.put rw1 bs).All (touchOp own) := by
    intro rw1 h
    rw [RCfg.put]
    split
    · rename_i hf
      exact ⟨by simp only [touchOp]; rw [h hf]; exact hcur, fun _ => trivial⟩
    · trivial
  rw [RCfg.append]
  split
  · rename_i hf
    refine Prog.Does.all (Prog.Does.bind ((does_createFile c hf).mono (openOp_touch hcur) fun _ h => h) (R := fun _ => True) ?_)
    rintro ⟨ok, rw2⟩ ⟨_, h2, _⟩
    dsimp only at h2 ⊢
    split
    · trivial
    · exact (hput rw2 h2).does
  · exact hput rw h

/-- A write of a writer that has not looked at the clock yet. -/
theorem touch_first {own : Str → Prop} {pat : Str} (hk : c.kind = .time pat) (hcur : own c.fileName) {bs : Bytes} {rw : RW} (h0 : rw.timeName = [])
    (h : rw.file = some .opened → rw.name = c.fileName) : (c.write lib rw bs).All (touchOp own) := by
  rw [RCfg.write, RCfg.needsToRoll, hk]
  refine ⟨trivial, fun t => ?_⟩
  show Prog.All _ (Prog.bind (if _ then _ else _) _)
  rw [if_pos h0]
  exact touch_append hcur (rw := { rw with timeName := lib.format t pat }) h

theorem clocks_app (a b : STrace) : clocks (a ++ b) = clocks a ++ clocks b := by
  induction a with
  | nil => rfl
  | cons x a ih =>
    obtain ⟨o, r⟩ := x
    cases o <;> simp [clocks, ih]

theorem life_timeName {pat : Str} (hk : c.kind = .time pat) {d0 d : Disk} {tr : STrace} {rw : RW} (hl : Life umask lib c d0 tr d rw) :
    rw.timeName = [] ∨ ∃ t ∈ clocks tr, rw.timeName = lib.format t pat := by
  induction hl with
  | start => exact .inl rfl
  | @write tr d rw bs tr' res rw' d' hl hr ih =>
    obtain ⟨t, ⟨_, u, rfl, ha⟩ | ⟨h1, _, h3⟩⟩ := time_write hk (life_name hl) hr
    · right
      rw [append_timeName ha]
      exact ⟨t, by simp [clocks_app, clocks], rfl⟩
    · have keep : rw'.timeName = rw.timeName → rw'.timeName = [] ∨ ∃ t ∈ clocks (tr ++ tr'), rw'.timeName = lib.format t pat := by
        intro e
        rw [e]
        rcases ih with ih | ⟨s, hs, ih⟩
        · exact .inl ih
        · exact .inr ⟨s, by rw [clocks_app]; exact List.mem_append_left _ hs, ih⟩
      rcases h3 with ⟨_, _, e, _⟩ | ⟨names, t2, _, _, ⟨_, _, rfl, rfl⟩ | ⟨_, _, _, u, v, _, _, _, rfl, _, ha⟩⟩
      · exact keep e
      · exact .inr ⟨t2, by simp [clocks_app, clocks], rfl⟩
      · rw [append_timeName ha]
        exact .inr ⟨t2, by simp [clocks_app, clocks], rfl⟩
  | crash => exact .inl rfl
  | restart => exact .inl rfl

theorem life_time_untouched {pat : Str} (hk : c.kind = .time pat) {d0 d : Disk} {tr : STrace} {rw : RW} (hl : Life umask lib c d0 tr d rw) {n : Str} (hcur : n ≠ c.fileName)
    (hb : ∀ v, ¬ Backup lib c n v) (hnew : ∀ t ∈ clocks tr, n ≠ backupName c.mode c.fileName (lib.format t pat)) : d.dir n = d0.dir n := by
  have step : ∀ {tr d rw bs tr' d'}, Life umask lib c d0 tr d rw → (∀ t ∈ clocks tr, n ≠ backupName c.mode c.fileName (lib.format t pat)) →
      Stops umask (c.write lib rw bs) d tr' d' → d'.dir n = d.dir n := by
    intro tr d rw bs tr' d' hl hnew hs
    have hown : ¬ (fun m => m ≠ n) n := by simp
    rcases life_timeName hk hl with h0 | ⟨t, ht, e⟩
    · exact touch_stops (touch_first hk (own := fun m => m ≠ n) (Ne.symm hcur) h0 (life_name hl)) hs hown
    · refine touch_stops (touch_write (own := fun m => m ≠ n) (Ne.symm hcur) (life_name hl) ?_ ?_).all hs hown
      · rintro m v hv rfl; exact hb v hv
      · intro tag htag
        unfold TagOf at htag
        rw [hk] at htag
        have htag : tag = rw.timeName := htag
        rw [htag, e]
        exact Ne.symm (hnew t ht)
  induction hl with
  | start => rfl
  | write hl hr ih =>
    have hn1 := fun t ht => hnew t (by rw [clocks_app]; exact List.mem_append_left _ ht)
    rw [step hl hn1 hr.stops, ih hn1]
  | crash hl hr ih =>
    have hn1 := fun t ht => hnew t (by rw [clocks_app]; exact List.mem_append_left _ ht)
    rw [step hl hn1 hr, ih hn1]
  | restart _ ih => exact ih hnew

end Log4g
