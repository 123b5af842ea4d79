import Verif.Model.Strconv
import Verif.Model.Level

/-! # Values read from configuration strings — internal/output_base.go, internal/output_rolling.go -/

namespace Log4g
open Strconv

/-- The common shape of `GetQueueSize` (internal/output_base.go:77-86), `GetBatchNum` (internal/output_base.go:89-98)
and `getMaxRolls` (internal/output_rolling.go:103-112): the three Go functions differ only in the constants. -/
def clampInt (dflt max : Int) (str : Str) : Int :=
  let mr := (atoi str).1
  let mr := if mr ≤ 0 then dflt else mr
  if mr > max then max else mr

/-- `GetQueueSize` — internal/output_base.go:77-86 (`queueMinSize`, `queueMaxSize` at :18-19). -/
def GetQueueSize (str : Str) : Int := clampInt 1000 100000 str

/-- `GetBatchNum` — internal/output_base.go:89-98 (`batchMinNum`, `batchMaxNum` at :20-21). -/
def GetBatchNum (str : Str) : Int := clampInt 20 500 str

/-- `getMaxRolls` — internal/output_rolling.go:103-112. -/
def getMaxRolls (str : Str) : Int := clampInt 5 20 str

/-- `GetThresholdLvl` — internal/output_base.go:101-107. -/
def GetThresholdLvl (str : Str) : Level :=
  let lvl := Level.levelFrom str
  if lvl = Level.Uninitialized then Level.All else lvl

/-- `strings.HasSuffix(str, c)` for a one-character suffix.  (Used at internal/output_rolling.go:76, 82, 88.) -/
def hasSuffixChar (str : Str) (c : Char) : Bool := str.getLast? = some c

/-- `getMaxSize` — internal/output_rolling.go:75-101.  Note that `strconv.Atoi` is applied to the
string with its suffix.  Multiplications are those of 64-bit `int`. -/
def getMaxSize (str : Str) : Int :=
  let size := (atoi str).1
  if hasSuffixChar str 'K' then
    let size := if size ≤ 0 then 10 * 1024 else size
    wrap64 (size * 1024)
  else if hasSuffixChar str 'M' then
    let size := if size ≤ 0 then 10 else size
    wrap64 (wrap64 (size * 1024) * 1024)
  else if hasSuffixChar str 'G' then
    let size := if size ≤ 0 then 1 else size
    wrap64 (wrap64 (wrap64 (size * 1024) * 1024) * 1024)
  else
    if size ≤ 0 then 10 * 1024 * 1024 else size

/-- `getFileMode` — internal/output_rolling.go:114-124.  `os.FileMode(fm)` is the conversion to an
unsigned 32-bit number. -/
def getFileMode (tc : Toolchain) (str : Str) (mode : Nat) : Nat :=
  let fm := (parseInt0 tc str).1
  let ret := (fm % 2 ^ 32).toNat
  let ret := if fm ≤ 0 then mode else ret
  if fm > 0o777 then mode else ret

-- The default permissions — internal/output_fsutil.go:12-14.
/-- internal/output_fsutil.go:12. -/
def defaultFilePermissions : Nat := 0o600
/-- internal/output_fsutil.go:13. -/
def defaultDirectoryPermissions : Nat := 0o760
/-- internal/output_fsutil.go:14. -/
def defaultBackupPermissions : Nat := 0o500

end Log4g
