import Verif.Model.Disk

/-! # Archives — `internal/archive/archive.go`, `internal/archive/{tar,zip,gzip}`

Readers and writers of the three formats are represented by the entries they have yet to deliver or have received; the
bytes of the file formats are the business of Go's packages `archive/tar`, `archive/zip` and `compress/gzip`.

Every operation on a reader, a writer or the buffer file may fail: `faults i` says whether the `i`-th operation does,
and, if it moves bytes, after how many. -/

namespace Log4g
namespace Archive

/-- A file in an archive — `tar.Header`, `zip.File`, as far as internal/archive/archive.go:149-198 uses them. -/
structure Entry where
  name : Str
  data : Bytes
  /-- `hdr.FileInfo().IsDir()` -/
  isDir : Bool := false
  deriving DecidableEq

/-- `tar.Reader` (internal/archive/tar/tar.go:10-17), `zip.Reader` (internal/archive/zip/zip.go:10-24, 57-59), `gzip.Reader`
(internal/archive/gzip/gzip.go:14-30).  `unread` are the files that follow, `cur` is what is left of the current
one. -/
inductive Reader
  | tar (unread : List Entry) (cur : Bytes)
  | zip (files : List Entry) (unread : Option (List Entry)) (cur : Bytes)
  | gzip (name : Str) (isEOF : Bool) (data : Bytes)
  /-- `nopCloser` — internal/archive/archive.go:39-47: it has the methods of `Reader` only -/
  | nop (r : Reader)

/-- What `NextFile` answers — internal/archive/archive.go:88-94. -/
inductive Next
  | eof
  | file (name : Str)

/-- `NextFile` — internal/archive/tar/tar.go:20-26, internal/archive/zip/zip.go:27-50, internal/archive/gzip/gzip.go:34-41. -/
def Reader.nextFile : Reader → Next × Reader
  | .tar [] cur => (.eof, .tar [] cur)
  | .tar (e :: es) _ => (.file e.name, .tar es e.data)
  | .zip files unread cur =>
    match unread.getD files with
    | [] => (.eof, .zip files (some []) cur)
    | e :: es => (.file e.name, .zip files (some es) e.data)
  | .gzip name isEOF data => if isEOF then (.eof, .gzip name isEOF data) else (.file name, .gzip name true data)
  | .nop r => ((r.nextFile).1, .nop (r.nextFile).2)

/-- What `Read` delivers until the end of the current file — internal/archive/zip/zip.go:52-54 and Go's packages. -/
def Reader.rest : Reader → Bytes
  | .tar _ cur => cur
  | .zip _ _ cur => cur
  | .gzip _ _ data => data
  | .nop r => r.rest

/-- After `n` bytes of the current file have been read (as above).  (internal/archive/archive.go:97) -/
def Reader.skip (n : Nat) : Reader → Reader
  | .tar es cur => .tar es (cur.drop n)
  | .zip files unread cur => .zip files unread (cur.drop n)
  | .gzip name isEOF data => .gzip name isEOF (data.drop n)
  | .nop r => .nop (r.skip n)

/-- The three kinds of writer — what the type switch of internal/archive/archive.go:56-71 asks for. -/
inductive Format | tar | zip | gzip
  deriving DecidableEq

/-- A file in the archive that is being written; `size` is what its header says (internal/archive/archive.go:116, 165, 192). -/
structure Part where
  name : Str
  size : Nat
  data : Bytes
  deriving DecidableEq

/-- `tar.Writer` (internal/archive/tar/tar.go:29-46), `zip.Writer` (internal/archive/zip/zip.go:62-70), `gzip.Writer`
(internal/archive/gzip/gzip.go:44-48, 62-64): the files written so far, the last one perhaps in part; for gzip, all that was
written, and whether `NextFile` was called. -/
structure Writer where
  format : Format
  parts : List Part := []
  raw : Bytes := []
  noMoreFiles : Bool := false
  deriving DecidableEq

/-- `hdr.Name` of an entry: the name of the buffer file when there is none — internal/archive/tar/tar.go:51-53,
internal/archive/zip/zip.go:75-77. -/
def entryName (bufName name : Str) : Str := if name = [] then bufName else name

/-- `NextFile` — internal/archive/tar/tar.go:50-60, internal/archive/zip/zip.go:74-85, internal/archive/gzip/gzip.go:51-58; `none` is
an error.  A tar writer does not begin a file before the last one has got all the bytes its header promises. -/
def Writer.nextFile (w : Writer) (bufName name : Str) (size : Nat) : Option Writer :=
  match w.format with
  | .tar =>
    if w.parts.getLast?.all (fun p => p.data.length = p.size) then some { w with parts := w.parts ++ [⟨entryName bufName name, size, []⟩] }
    else none
  | .zip => some { w with parts := w.parts ++ [⟨entryName bufName name, size, []⟩] }
  | .gzip => if w.noMoreFiles then none else some { w with noMoreFiles := true }

/-- Add to the last of the files: `Write` (internal/archive/zip/zip.go:87-89 and Go's packages). -/
def addLast (bs : Bytes) : List Part → List Part
  | [] => []
  | [p] => [{ p with data := p.data ++ bs }]
  | p :: q :: ps => p :: addLast bs (q :: ps)

/-- How many bytes the writer takes: a tar writer no more than the header promises (Go's package `archive/tar`).
(Used at internal/archive/archive.go:119, 168.) -/
def Writer.room (w : Writer) (bs : Bytes) : Nat :=
  match w.format, w.parts.getLast? with
  | .tar, some p => min bs.length (p.size - p.data.length)
  | .tar, none => 0
  | _, _ => bs.length

/-- `Write` — internal/archive/zip/zip.go:87-89 and Go's packages.  Simplification: a `Write` to a zip writer before the first
`NextFile` (a nil pointer) writes nothing; `Copy` never does this. -/
def Writer.write (w : Writer) (bs : Bytes) : Writer :=
  match w.format with
  | .gzip => { w with raw := w.raw ++ bs }
  | _ => { w with parts := addLast bs w.parts }

/-- The temporary file of internal/archive/archive.go:79: its name, its content and the position of the next read or
write. -/
structure Buf where
  name : Str
  data : Bytes := []
  pos : Nat := 0

/-- Writing at the current position; a gap is filled with zeros (internal/archive/archive.go:97). -/
def Buf.write (b : Buf) (bs : Bytes) : Buf :=
  { b with data := b.data.take b.pos ++ List.replicate (b.pos - b.data.length) 0 ++ bs ++ b.data.drop (b.pos + bs.length), pos := b.pos + bs.length }

/-- What is in use during a copy (internal/archive/archive.go:76-129), and how many operations there have been. -/
structure CState where
  src : Reader
  dst : Writer
  buf : Buf
  ops : Nat := 0

/-- The answers to the operations: each succeeds or fails, after some bytes (the error branches of
internal/archive/archive.go:80, 91, 97-127, 155, 165-170, 185-197). -/
abbrev Faults := Nat → Option Nat

/-- `io.Copy(buf, src)` — internal/archive/archive.go:97-99. -/
def fill (faults : Faults) (s : CState) : Bool × CState :=
  match faults s.ops with
  | none => (true, { s with buf := s.buf.write s.src.rest, src := s.src.skip s.src.rest.length, ops := s.ops + 1 })
  | some k => (false, { s with buf := s.buf.write (s.src.rest.take k), src := s.src.skip k, ops := s.ops + 1 })

/-- `io.Copy(dst, src)` for bytes `bs` — internal/archive/archive.go:68, 119-121, 168-170, 196. -/
def pour (faults : Faults) (s : CState) (bs : Bytes) : Bool × CState :=
  match faults s.ops with
  | none =>
    if bs.length ≤ s.dst.room bs then (true, { s with dst := s.dst.write bs, ops := s.ops + 1 })
    else (false, { s with dst := s.dst.write (bs.take (s.dst.room bs)), ops := s.ops + 1 })
  | some k => (false, { s with dst := s.dst.write (bs.take (min k (s.dst.room bs))), ops := s.ops + 1 })

/-- One operation without bytes (`TempFile`, `NextFile`, `Seek`, `Chmod`, `Stat`, `Truncate` and so on,
internal/archive/archive.go:79-127, 151, 165, 184, 192). -/
def tick (faults : Faults) (s : CState) : Bool × CState := ((faults s.ops).isNone, { s with ops := s.ops + 1 })

/-- One turn of the loop of `copyBuffer` after `NextFile` — internal/archive/archive.go:96-127. -/
def copyOne (faults : Faults) (s : CState) (name : Str) : Bool × CState :=
  let (ok, s) := fill faults s
  if !ok then (false, s) else
  -- Seek
  let (ok, s) := tick faults s
  if !ok then (false, s) else
  let s := { s with buf := { s.buf with pos := 0 } }
  -- Chmod
  let (ok, s) := tick faults s
  if !ok then (false, s) else
  -- Stat
  let (ok, s) := tick faults s
  if !ok then (false, s) else
  let size := s.buf.data.length
  let (ok, s) := tick faults s
  if !ok then (false, s) else
  match s.dst.nextFile s.buf.name name size with
  | none => (false, s)
  | some w =>
    let s := { s with dst := w }
    let (ok, s) := pour faults s (s.buf.data.drop s.buf.pos)
    if !ok then (false, s) else
    let s := { s with buf := { s.buf with pos := s.buf.data.length } }
    -- Truncate
    let (ok, s) := tick faults s
    if !ok then (false, s) else
    let s := { s with buf := { s.buf with data := [] } }
    -- Seek
    let (ok, s) := tick faults s
    if !ok then (false, s) else
    (true, { s with buf := { s.buf with pos := 0 } })

/-- `copyBuffer` — internal/archive/archive.go:76-129: the loop of :85; `fuel` bounds the number of turns. -/
def copyLoop (faults : Faults) : Nat → CState → Bool × CState
  | 0, s => (false, s)
  | fuel + 1, s =>
    let (ok, s) := tick faults s
    if !ok then (false, s) else
    match s.src.nextFile with
    | (.eof, r) => (true, { s with src := r })
    | (.file name, r) =>
      let (ok, s) := copyOne faults { s with src := r } name
      if !ok then (false, s) else copyLoop faults fuel s

/-- How many turns the loop of internal/archive/archive.go:85 can take. -/
def Reader.turns : Reader → Nat
  | .tar es _ => es.length + 1
  | .zip files unread _ => (unread.getD files).length + 1
  | .gzip _ _ _ => 2
  | .nop r => r.turns

/-- `copyBuffer` — internal/archive/archive.go:76-129; `bufName` is the base name of the temporary file. -/
def copyBuffer (faults : Faults) (bufName : Str) (dst : Writer) (src : Reader) : Bool × CState :=
  let (ok, s) := tick faults { src, dst, buf := { name := bufName } }
  if !ok then (false, s) else copyLoop faults s.src.turns s

/-- `copyTar` — internal/archive/archive.go:149-172. -/
def copyTar (faults : Faults) : List Entry → CState → Bool × CState
  | [], s => tick faults s
  | e :: es, s =>
    let (ok, s) := tick faults s
    if !ok then (false, s) else
    if e.isDir then copyTar faults es s else
    let (ok, s) := tick faults s
    if !ok then (false, s) else
    -- `WriteHeader(hdr)`
    if s.dst.parts.getLast?.all (fun p => p.data.length = p.size) then
      let (ok, s) := pour faults { s with dst := { s.dst with parts := s.dst.parts ++ [⟨e.name, e.data.length, []⟩] } } e.data
      if !ok then (false, s) else copyTar faults es s
    else (false, s)

/-- `copyZip`, `copyZipFile` — internal/archive/archive.go:174-198. -/
def copyZip (faults : Faults) : List Entry → CState → Bool × CState
  | [], s => (true, s)
  | e :: es, s =>
    -- `f.Open()`
    let (ok, s) := tick faults s
    if !ok then (false, s) else
    -- `CreateHeader(&hdr)`
    let (ok, s) := tick faults s
    if !ok then (false, s) else
    let (ok, s) := pour faults { s with dst := { s.dst with parts := s.dst.parts ++ [⟨e.name, e.data.length, []⟩] } } e.data
    if !ok then (false, s) else copyZip faults es s

/-- `Copy` — internal/archive/archive.go:55-74: by the formats of the two, but a `nopCloser` hides that of the source. -/
def copy (faults : Faults) (bufName : Str) (dst : Writer) (src : Reader) : Bool × CState :=
  match src, dst.format with
  | .tar es _, .tar => copyTar faults es { src, dst, buf := { name := bufName } }
  | .zip files _ _, .zip => copyZip faults files { src, dst, buf := { name := bufName } }
  | .gzip _ _ data, .gzip => pour faults { src, dst, buf := { name := bufName } } data
  | _, _ => copyBuffer faults bufName dst src

/-- What a gzip file contains — internal/output_rollingwriter.go:129-132 asks. -/
inductive GzContent
  /-- a tar archive -/
  | tar (es : List Entry)
  /-- anything else -/
  | other (bs : Bytes)

/-- The bytes of a tar archive without entries: two blocks of zeros (Go's package `archive/tar`; internal/archive/tar/tar.go:64-72). -/
def emptyTar : Bytes := List.replicate 1024 0

/-- `unarchiver` of zip files — internal/output_rollingwriter.go:101-111. -/
def unzip (es : List Entry) : Reader := .nop (.zip es none [])

/-- `unarchiver` of gzip files — internal/output_rollingwriter.go:123-144: a tar reader if it finds a first entry. -/
def gunzip (fileName : Str) : GzContent → Reader
  | .tar [] => .gzip fileName false emptyTar
  | .tar (e :: es) => .nop (.tar (e :: es) [])
  | .other bs => .gzip fileName false bs

end Archive
end Log4g
