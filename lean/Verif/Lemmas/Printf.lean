import Verif.Lemmas.Caller

namespace Log4g
open Spec World
variable {V : Type}

theorem empty_nil : Ctx.value (V := V) [] callerInfoKey = .nil := rfl

/-- The context of the event, whoever delivers it. -/
theorem ite_user {ctx : Ctx V} (h : ∀ v, ctx.value callerInfoKey ≠ .user v) (P : Prop) [Decidable P] :
    ¬ ∃ v, Ctx.value (V := V) (if P then ctx else []) callerInfoKey = .user v := by
  rintro ⟨v, hv⟩
  split at hv
  · exact h v hv
  · rw [empty_nil] at hv; simp at hv

theorem ite_nil {ctx : Ctx V} (h : ctx.value callerInfoKey = .nil) (P : Prop) [Decidable P] :
    Ctx.value (V := V) (if P then ctx else []) callerInfoKey = .nil := by
  split
  · exact h
  · exact empty_nil

theorem dispatch_sent {l : Logger} {stack : List Frame} {now : Nat} {ctx : Ctx V} {name : Str} {skip : Int}
    {lvl : Level} {fmt : Str} {args : List V} (h : ¬ ∃ v, ctx.value callerInfoKey = .user v) :
    ∃ evt, dispatch l stack now ctx name skip lvl fmt args = .sent (l.outputs.map fun o => ⟨o, evt⟩) := by
  rcases dispatch_out l stack now ctx name skip lvl fmt args with hp | ⟨evt, he, _⟩
  · exact absurd ((dispatch_panic ..).mp hp).2 h
  · exact ⟨evt, he⟩

theorem printf_at {w : World} (inv : WInv w) (now : Nat) {n : Str} {ps : List Str} (hp : Path n ps) {r : Nat}
    (h : Map.get w.loggers n = some r) (stack : List Frame) (ctx : Ctx V) {lvl : Level} (fmt : Str) (args : List V)
    {pre : List Str} {m : Str} {post : List Str} {ops : List Nat} (hN : Nearest w lvl ps pre m post ops) :
    ∃ l0 l, loggerAt w n = some l0 ∧ loggerAt w m = some l ∧ l.outputs = ops ∧
      w.printf now stack r ctx lvl fmt args =
        dispatch l (List.replicate (pre.length + 1) writeFrame ++ printfFrame :: stack) now
          (if pre = [] then ctx else []) n (l0.callerSkip + pre.length) lvl fmt args := by
  obtain ⟨l0, hl0, hc⟩ := printf_spec inv now hp h stack ctx lvl fmt args
  obtain ⟨l, hl, ho⟩ := hN.outs
  have hno : ∀ x, HasOutputs w x [] → HasOutputs w x ops → False := by
    rintro x ⟨l1, a, b⟩ ⟨l2, c, d⟩
    rw [a] at c; injection c with c; subst c
    rw [b] at d; exact hN.ne d.symm
  let P : Str → Prop := fun x => ¬ (HasOutputs w x [] ∧ Enables w x lvl)
  have h1 : ∀ x ∈ pre, ¬ P x := fun x hx hP => hP ⟨hN.empty x hx, hN.enabled x (by simp [hx])⟩
  have h2 : P m := fun hP => hno m hP.1 hN.outs
  rcases hc with ⟨pre', m', post', l', he, e⟩ | ⟨pre', m', post', hs, e⟩
  · by_cases hout : l'.outputs = []
    · exfalso
      have hpost : post' = [] := by
        rcases he.outs with h | h
        · exact absurd hout h
        · exact h
      subst hpost
      have hall : ∀ x ∈ ps, HasOutputs w x [] := by
        intro x hx
        rw [he.split] at hx
        rcases List.mem_append.mp hx with hx | hx
        · exact he.empty x hx
        · simp at hx; subst hx; exact ⟨l', he.at_, hout⟩
      exact hno m (hall m (by rw [hN.split]; simp)) hN.outs
    · have h3 : ∀ x ∈ pre', ¬ P x := fun x hx hP => hP ⟨he.empty x hx, he.enabled x hx⟩
      have h4 : P m' := by
        rintro ⟨⟨l2, a, b⟩, _⟩
        rw [he.at_] at a; injection a with a; subst a; exact hout b
      obtain ⟨rfl, rfl, rfl⟩ := split_unique P (hN.split.symm.trans he.split) h1 h2 h3 h4
      have := he.at_
      rw [hl] at this; injection this with this; subst this
      exact ⟨l0, l, hl0, hl, ho, e⟩
  · exfalso
    have h3 : ∀ x ∈ pre', ¬ P x := fun x hx hP => hP ⟨hs.empty x hx, hs.enabled x hx⟩
    have h4 : P m' := fun hP => hs.disabled hP.2
    obtain ⟨rfl, rfl, rfl⟩ := split_unique P (hN.split.symm.trans hs.split) h1 h2 h3 h4
    exact hs.disabled (hN.enabled m (by simp))

/-- Where a delivery comes from. -/
theorem printf_delivery {w : World} (inv : WInv w) (now : Nat) {n : Str} {ps : List Str} (hp : Path n ps) {r : Nat}
    (h : Map.get w.loggers n = some r) (stack : List Frame) (ctx : Ctx V) {lvl : Level} (fmt : Str) (args : List V)
    {d : Delivery V} (hd : d ∈ (w.printf now stack r ctx lvl fmt args).deliveries) :
    ∃ pre m post ops l0 l, Nearest w lvl ps pre m post ops ∧ d.out ∈ ops ∧ loggerAt w n = some l0 ∧
      loggerAt w m = some l ∧ l.outputs = ops ∧
      w.printf now stack r ctx lvl fmt args =
        dispatch l (List.replicate (pre.length + 1) writeFrame ++ printfFrame :: stack) now
          (if pre = [] then ctx else []) n (l0.callerSkip + pre.length) lvl fmt args := by
  obtain ⟨l0, hl0, hc⟩ := printf_spec inv now hp h stack ctx lvl fmt args
  rcases hc with ⟨pre', m', post', l', he, e⟩ | ⟨pre', m', post', hs, e⟩
  · have hd' := hd
    rw [e] at hd'
    rcases dispatch_out l' (List.replicate (pre'.length + 1) writeFrame ++ printfFrame :: stack) now
          (if pre' = [] then ctx else []) n (l0.callerSkip + pre'.length) lvl fmt args with hpan | ⟨evt, hev, _⟩
    · rw [hpan] at hd'; simp [Outcome.deliveries] at hd'
    · rw [hev] at hd'
      simp only [Outcome.deliveries, List.mem_map] at hd'
      obtain ⟨o, ho, rfl⟩ := hd'
      refine ⟨pre', m', post', l'.outputs, l0, l', ⟨he.split, he.empty, ⟨l', he.at_, rfl⟩, ?_, ?_⟩, ho, hl0, he.at_, rfl, e⟩
      · intro hnil; rw [hnil] at ho; simp at ho
      · intro x hx
        rcases List.mem_append.mp hx with hx | hx
        · exact he.enabled x hx
        · simp at hx; subst hx; exact he.enabledHere
  · rw [e] at hd; simp [Outcome.deliveries] at hd

/-- A logger that disables the level delivers nothing. -/
theorem printf_disabled {w : World} (inv : WInv w) (now : Nat) {n : Str} {r : Nat}
    (h : Map.get w.loggers n = some r) (stack : List Frame) (ctx : Ctx V) {lvl : Level} (fmt : Str) (args : List V)
    (hd : w.levelEnabled r lvl = false) : w.printf now stack r ctx lvl fmt args = .sent [] := by
  obtain ⟨l, h1, h2⟩ := inv.named _ _ h
  have hlt := heap_lt h1
  simp only [printf, h1]
  obtain ⟨k, hk⟩ : ∃ k, w.heap.length = k + 1 := ⟨w.heap.length - 1, by omega⟩
  rw [hk]
  simp [write, h1, hd]

/-- A logger with outputs of its own. -/
theorem nearest_own {w : World} {n : Str} {r : Nat} (h : Map.get w.loggers n = some r) {ps : List Str} (hp : Path n ps)
    {lvl : Level} {ops : List Nat} (ho : HasOutputs w n ops) (hne : ops ≠ []) (he : w.levelEnabled r lvl = true) :
    ∃ post, Nearest w lvl ps [] n post ops := by
  obtain ⟨qs, rfl⟩ := path_cons hp
  exact ⟨qs, rfl, by simp, ho, hne, by simp; exact (enables_iff h lvl).mpr he⟩

theorem map_out (l : List Nat) (evt : Event V) : (l.map fun o => (⟨o, evt⟩ : Delivery V)).map (·.out) = l := by
  rw [List.map_map]
  exact List.map_id l

end Log4g
