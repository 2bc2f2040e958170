/-
Model of the catalog lines and the layout helper of parfu 0.6's `Parfu_storage_entry`
(parfu_file_system_classes.cc:53-212).  The 0.6 main program does not call them.
-/
import Verif.March
set_option autoImplicit false

namespace Parfu

/-- parfu_file_system_classes.cc:117-127, 167-177: the type character; nothing for other types. -/
def catType : Kind → Bytes
  | .reg => [70]
  | .dir => [68]
  | .lnk => [76]
  | .other => []

/-- parfu_file_system_classes.cc:107-147 `generate_archive_catalog_line`; `hdr` is
`header_size()`. -/
def archiveLine (e : Ent) (hdr : Nat) : Bytes :=
  e.rel ++ [9] ++ catType e.kind ++ [9] ++ e.target ++ [9] ++ digits 10 e.size ++ [9] ++
  digits 10 hdr ++ [9] ++ [10]

/-- parfu_file_system_classes.cc:153-212 `generate_full_catalog_line`: the rest of the intended
fields is only comments. -/
def fullLine (e : Ent) : Bytes :=
  e.rel ++ [9] ++ catType e.kind ++ [9] ++ e.target ++ [9] ++ digits 10 e.size ++ [9]

/-- parfu_file_system_classes.cc:53-90 `next_available_after_me`. -/
def nextAvailable (start : Nat) (e : Ent) (hdr : Nat) : Nat :=
  (if start % blk ≠ 0 then (start / blk + 1) * blk else start) + hdr + e.size

end Parfu
