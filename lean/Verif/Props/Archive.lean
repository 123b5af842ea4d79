import Verif.Lemmas.Archive

/-! # C71, C80 — copying archives -/

namespace Log4g
open Archive Spec

/-- A writer whose answers never fail. -/
private def fine : Faults := fun _ => none

/-- **C71** (tar and zip).  Copying an archive whose files have names and are not directories, into a tar or zip archive
that is ready for another file: if it succeeds, the archive has got the same names with the same contents in the same
order, after those it had, and is ready for another; if it fails, it has got the first of them, the last one perhaps in
part; and it succeeds unless an operation on the archives or the buffer file fails. -/
theorem C71_copy {faults : Faults} {bufName : Str} {src : Reader} {dst : Writer} {es : List Entry} (h : Fresh src es) (hw : Ready dst) (hf : dst.format ≠ .gzip)
    (hes : ∀ e ∈ es, e.name ≠ [] ∧ e.isDir = false) :
    Added (contents dst) (pairs es) (copy faults bufName dst src).1 (contents (copy faults bufName dst src).2.dst) ∧
      ((copy faults bufName dst src).1 = true → Ready (copy faults bufName dst src).2.dst) ∧
      (NoFaults faults → (copy faults bufName dst src).1 = true) := by
  have hfilter : es.filter (fun e => !e.isDir) = es := List.filter_eq_self.mpr fun e he => by simp [(hes e he).2]
  have hnames : (pairs es).map (fun x => (entryName bufName x.1, x.2)) = pairs es := by
    simp only [pairs, List.map_map]
    refine List.map_congr_left fun e he => ?_
    simp [entryName, (hes e he).1]
  have buffered : Added (contents dst) (pairs es) (copyBuffer faults bufName dst src).1 (contents (copyBuffer faults bufName dst src).2.dst) ∧
      ((copyBuffer faults bufName dst src).1 = true → Ready (copyBuffer faults bufName dst src).2.dst) ∧ (NoFaults faults → (copyBuffer faults bufName dst src).1 = true) := by
    obtain ⟨ok, s', e, h1, h2, h3, h4⟩ := copyBuffer_spec (faults := faults) bufName (src := src) hw hf
    rw [fresh_left h, hnames] at h1
    rw [e]
    exact ⟨h1, h3, h4⟩
  cases h with
  | nop h => exact buffered
  | gzip =>
    cases hd : dst.format with
    | gzip => exact absurd hd hf
    | tar => simpa only [copy, hd] using buffered
    | zip => simpa only [copy, hd] using buffered
  | tar =>
    cases hd : dst.format with
    | gzip => exact absurd hd hf
    | zip => simpa only [copy, hd] using buffered
    | tar =>
      obtain ⟨ok, s', e, h1, h2, h3, h4⟩ := copyTar_spec (faults := faults) (es := es) (s := { src := .tar es [], dst, buf := { name := bufName } }) hw hd
      simp only [copy, hd, e]
      rw [hfilter] at h1
      exact ⟨h1, h3, h4⟩
  | zip =>
    cases hd : dst.format with
    | gzip => exact absurd hd hf
    | tar => simpa only [copy, hd] using buffered
    | zip =>
      obtain ⟨ok, s', e, h1, h2, h3, h4⟩ := copyZip_spec (faults := faults) (es := es) (s := { src := .zip es none [], dst, buf := { name := bufName } }) hw hd
      simp only [copy, hd, e]
      exact ⟨h1, h3, h4⟩

/-- A copy of three files, the second longer than the third, the third empty, through the one buffer file. -/
example : contents (copy fine c!"buf7" { format := .zip, parts := [⟨c!"log.1", 1, [9]⟩] } (.tar [⟨c!"a", [1, 2], false⟩, ⟨c!"b", [3, 4, 5], false⟩, ⟨c!"c", [], false⟩] [])).2.dst
    = [(c!"log.1", [9]), (c!"a", [1, 2]), (c!"b", [3, 4, 5]), (c!"c", [])] := by decide +kernel

/-- One that is cut short: the copy of the second file into the archive fails after one byte. -/
example : copy (fun i => if i = 16 then some 1 else none) c!"buf7" { format := .zip } (.tar [⟨c!"a", [1, 2], false⟩, ⟨c!"b", [3, 4, 5], false⟩] []) |> fun r => (r.1, contents r.2.dst)
    = (false, [(c!"a", [1, 2]), (c!"b", [3])]) := by decide +kernel

/-- **C71**, without restriction on the files: directories are left out when a tar archive is copied to a tar archive
directly, and a file without name gets that of the buffer file unless the two formats are the same. -/
theorem C71_copy_any {faults : Faults} {bufName : Str} {src : Reader} {dst : Writer} {es : List Entry} (h : Fresh src es) (hw : Ready dst) (hf : dst.format ≠ .gzip) (hn : NoFaults faults) :
    (copy faults bufName dst src).1 = true ∧
    contents (copy faults bufName dst src).2.dst = contents dst ++
      match src, dst.format with
      | .tar _ _, .tar => (es.filter fun e => e.isDir = false).map fun e => (e.name, e.data)
      | .zip _ _ _, .zip => es.map fun e => (e.name, e.data)
      | _, _ => es.map fun e => (if e.name = [] then bufName else e.name, e.data) := by
  have buffered : (copyBuffer faults bufName dst src).1 = true ∧
      contents (copyBuffer faults bufName dst src).2.dst = contents dst ++ es.map fun e => (if e.name = [] then bufName else e.name, e.data) := by
    obtain ⟨ok, s', e, h1, h2, h3, h4⟩ := copyBuffer_spec (faults := faults) bufName (src := src) hw hf
    have := h4 hn
    subst this
    rw [e]
    simp only [Added, if_true, fresh_left h, pairs, List.map_map] at h1
    exact ⟨rfl, h1⟩
  cases h with
  | nop h => exact buffered
  | gzip =>
    cases hd : dst.format with
    | gzip => exact absurd hd hf
    | tar => simpa only [copy, hd] using buffered
    | zip => simpa only [copy, hd] using buffered
  | tar =>
    cases hd : dst.format with
    | gzip => exact absurd hd hf
    | zip => simpa only [copy, hd] using buffered
    | tar =>
      obtain ⟨ok, s', e, h1, h2, h3, h4⟩ := copyTar_spec (faults := faults) (es := es) (s := { src := .tar es [], dst, buf := { name := bufName } }) hw hd
      have := h4 hn
      subst this
      simp only [copy, hd, e]
      simp only [Added, if_true] at h1
      have hb : (fun e : Entry => !e.isDir) = fun e => decide (e.isDir = false) := by funext e; cases e.isDir <;> rfl
      rw [hb] at h1
      exact ⟨trivial, h1⟩
  | zip =>
    cases hd : dst.format with
    | gzip => exact absurd hd hf
    | tar => simpa only [copy, hd] using buffered
    | zip =>
      obtain ⟨ok, s', e, h1, h2, h3, h4⟩ := copyZip_spec (faults := faults) (es := es) (s := { src := .zip es none [], dst, buf := { name := bufName } }) hw hd
      have := h4 hn
      subst this
      simp only [copy, hd, e]
      exact ⟨trivial, h1⟩

example : contents (copy fine c!"buf7" { format := .tar } (.tar [⟨c!"d/", [], true⟩, ⟨c!"d/a", [1], false⟩] [])).2.dst = [(c!"d/a", [1])] := by decide +kernel

/-- **C71** (gzip).  A gzip file holds one file, without name.  Copying into one succeeds only if the archive has at
most one file, and then the content is that file's; it does succeed if nothing else fails. -/
theorem C71_gzip {faults : Faults} {bufName : Str} {src : Reader} {es : List Entry} (h : Fresh src es) :
    ((copy faults bufName { format := .gzip } src).1 = true → es.length ≤ 1 ∧ (copy faults bufName { format := .gzip } src).2.dst.raw = (es.map (·.data)).flatten) ∧
      (NoFaults faults → es.length ≤ 1 → (copy faults bufName { format := .gzip } src).1 = true) := by
  have hl := fresh_left h
  have hbuf : copy faults bufName { format := .gzip } src = copyBuffer faults bufName { format := .gzip } src →
      ((copy faults bufName { format := .gzip } src).1 = true → es.length ≤ 1 ∧ (copy faults bufName { format := .gzip } src).2.dst.raw = (es.map (·.data)).flatten) ∧
      (NoFaults faults → es.length ≤ 1 → (copy faults bufName { format := .gzip } src).1 = true) := by
    intro hc
    rw [hc]
    obtain ⟨ok, s', e, h1, h2⟩ := copyGzip_spec (faults := faults) bufName (src := src) 
    rw [e]
    have hlen : src.left.length = es.length := by rw [hl]; simp [pairs]
    have hdata : (src.left.map (·.2)).flatten = (es.map (·.data)).flatten := by rw [hl]; simp [pairs, Function.comp_def]
    rw [hlen] at h1 h2
    rw [hdata] at h1
    exact ⟨h1, h2⟩
  cases h with
  | nop h => exact hbuf rfl
  | tar => exact hbuf rfl
  | zip => exact hbuf rfl
  | @gzip name data =>
    simp only [copy, pour]
    cases hf : faults 0 with
    | none => simp [Writer.room, Writer.write]
    | some k =>
      simp only [Bool.false_eq_true, false_implies, true_and]
      intro h
      rw [h] at hf
      cases hf

example : (copy fine c!"buf7" { format := .gzip } (.nop (.zip [⟨c!"a", [1, 2], false⟩] none []))).2.dst.raw = [1, 2] := by decide +kernel
example : (copy fine c!"buf7" { format := .gzip } (.nop (.zip [⟨c!"a", [1, 2], false⟩, ⟨c!"b", [3], false⟩] none []))).1 = false := by decide +kernel

/-- **C80** is refuted: a compressed tar archive without files is read back as a compressed file, and copying it on
adds a file that nobody wrote: two blocks of zeros. -/
theorem C80_reread_refuted : ∃ (f b : Str) (faults : Faults), NoFaults faults ∧ (copy faults b { format := .tar } (gunzip f (.tar []))).1 = true ∧
    contents (copy faults b { format := .tar } (gunzip f (.tar []))).2.dst = [(f, List.replicate 1024 0)] :=
  ⟨c!"log.tar.gz", c!"buf7", fun _ => none, fun _ => rfl, by decide +kernel, by decide +kernel⟩

/-- **C80**, the part that holds: an archive with at least one file, or a zip archive, read back and copied on to an
archive, yields its files and nothing else, however often this is done. -/
theorem C80_reread_partial {faults : Faults} (hn : NoFaults faults) {f b : Str} {dst : Writer} (hw : Ready dst) (hf : dst.format ≠ .gzip) {es : List Entry} (hes : ∀ e ∈ es, e.name ≠ [] ∧ e.isDir = false) :
    (es ≠ [] → (copy faults b dst (gunzip f (.tar es))).1 = true ∧ contents (copy faults b dst (gunzip f (.tar es))).2.dst = contents dst ++ es.map fun e => (e.name, e.data)) ∧
    ((copy faults b dst (unzip es)).1 = true ∧ contents (copy faults b dst (unzip es)).2.dst = contents dst ++ es.map fun e => (e.name, e.data)) := by
  have main : ∀ src, Fresh src es → (copy faults b dst src).1 = true ∧ contents (copy faults b dst src).2.dst = contents dst ++ es.map fun e => (e.name, e.data) := by
    intro src h
    obtain ⟨h1, _, h3⟩ := C71_copy (faults := faults) (bufName := b) h hw hf hes
    have := h3 hn
    rw [this] at h1
    exact ⟨this, h1⟩
  refine ⟨fun hne => main _ ?_, main _ (.nop .zip)⟩
  cases es with
  | nil => exact absurd rfl hne
  | cons e es => exact .nop .tar

example : contents (copy fine c!"buf7" { format := .tar } (gunzip c!"log.tar.gz" (.tar [⟨c!"log.1", [1, 2], false⟩, ⟨c!"log.2", [], false⟩]))).2.dst = [(c!"log.1", [1, 2]), (c!"log.2", [])] := by
  decide +kernel

end Log4g
