import Verif.Model.FsLink
import Verif.Model.Files

/-!
# `ScanDir` where there are symbolic links
-/

namespace Verif.FsLink

open Utf8

/-- `ScanDir`, help/utils/files.go:174-193, on a file system with links. `ReadDir` follows the path, links included, and gives for each name whether
it is a directory itself: a link is none (`Lstat`). `readDir` is its answer for a place, `none` an error. The fuel bounds the depth. -/
def scanDir (fs : FS) (cwd : Loc) (readDir : Loc → Option (List (Bytes × Bool))) : Nat → Bytes → Go (Option (List Bytes))
  | 0, _ => .error .diverge
  | fuel + 1, dir =>
    let dir := Strings.trimSuffix dir (lit "/")
    match (match resolve fs true cwd dir with
      | .found l => readDir l
      | _ => none) with
    | none => pure none
    | some infos => Fs.scanLoop (scanDir fs cwd readDir fuel) dir infos []

end Verif.FsLink
