/-
Model of parfu 0.5.1's layout: parfu_set_offsets_and_split_ffel (parfu_file_list_utils.cc:632-1172).
`int`/`long` arithmetic is unbounded; all quantities divided are non-negative, so C's division is
Lean's.
-/
import Verif.LegacyList
set_option autoImplicit false

namespace Parfu

/-- parfu_file_list_utils.cc:681-683: the running positions `write_loc_whole_archive_file`,
`write_loc_this_rank`, `current_rank_bucket`. -/
structure LPos where
  whole : Int
  rank : Int
  bucket : Int
  deriving DecidableEq, Repr

/-- parfu_file_list_utils.cc:713-722 `sum_file_size`. -/
def sumSize (e : Frag) : Int := if e.size ≥ 0 then e.size + e.hdr else e.hdr

/-- parfu_file_list_utils.cc:725-733 `blocked_sum_file_size`. -/
def blockedSum (bl : Int) (e : Frag) : Int :=
  if sumSize e % bl = 0 then sumSize e else (sumSize e / bl + 1) * bl

/-- parfu_file_list_utils.cc:822-887 (option B) and 1011-1075 (option C): the pad file before an
entry.  `none` is a NULL return.  The header size is computed with the link target of the entry that
follows. -/
def padBefore (bl : Int) (pad : Bytes) (e : Frag) (loc space : Int) : Res (Option Frag) :=
  if space ≥ bl then
    match computeHdrSize pad e.target space with
    | .error x => .error x
    | .ok h =>
      if (h : Int) > space then .ok none
      else match computeHdrSize pad e.target (space - h) with
        | .error x => .error x
        | .ok h' =>
          if h' ≠ h then .ok none
          else .ok (some { e with padLoc := loc, padName := some pad, padHdr := h, padSize := space - h })
  else .ok (some e)

/-- parfu_file_list_utils.cc:1077-1133: fragment `j` of the whole buckets a large file fills; the
file starts at bucket `b`, `n` is `n_total_buckets_per_file`. -/
def wholeFrag (acc : Int) (e : Frag) (n b : Int) (j : Nat) : Frag :=
  if j = 0 then
    { e with size := acc - e.hdr, locA := b * acc + e.hdr, locO := 0, nFrag := n, fp := -1, bucket := b }
  else
    { e with size := acc, locA := (b + j) * acc, locO := acc * j - e.hdr, nFrag := n, fp := -1, bucket := b + j }

/-- parfu_file_list_utils.cc:1136-1166: the fragment in the last, partial bucket, after `k` whole
ones. -/
def lastFrag (acc : Int) (e : Frag) (n b : Int) (k : Nat) : Frag :=
  { e with size := e.size - (acc - e.hdr) - ((k : Int) - 1) * acc, locA := (b + k) * acc,
           locO := acc * k - e.hdr, nFrag := n, fp := -1, bucket := b + k }

/-- parfu_file_list_utils.cc:687-1168, the loop body for one entry: NULL return, or the entry as
updated in the input list, its fragments and the new positions. -/
def placeEntry (bl acc : Int) (pad : Bytes) (p : LPos) (e : Frag) : Res (Option ((Frag × List Frag) × LPos)) :=
  if e.hdr ≤ 0 then .ok none
  else
    let bs := blockedSum bl e
    if bs ≤ acc then
      if p.rank + bs ≤ acc then
        -- option A
        let e' := { e with locA := p.whole, bucket := p.bucket, locO := 0 }
        let f := { e' with locA := p.whole + e.hdr, nFrag := 1, fp := -1 }
        let q := if bs = acc then ⟨p.whole + bs, 0, p.bucket + 1⟩ else ⟨p.whole + bs, p.rank + bs, p.bucket⟩
        .ok (some ((e', [f]), q))
      else
        -- option B
        let b := p.bucket + 1
        let w := b * acc
        match padBefore bl pad { e with locA := w } p.whole (w - p.whole) with
        | .error x => .error x
        | .ok none => .ok none
        | .ok (some e1) =>
          let e' := { e1 with bucket := b, locO := 0 }
          let f := { e' with locA := w + e.hdr, nFrag := 1, fp := -1 }
          let q := if bs = acc then ⟨w + bs, 0, b + 1⟩ else ⟨w + bs, bs, b⟩
          .ok (some ((e', [f]), q))
    else
      -- option C
      let k := (bs / acc).toNat
      let uneven := bs % acc ≠ 0
      let n : Int := if uneven then k + 1 else k
      let b := if p.whole % acc ≠ 0 then p.whole / acc + 1 else p.whole / acc
      let w := b * acc
      match padBefore bl pad { e with locA := w } p.whole (w - p.whole) with
      | .error x => .error x
      | .ok none => .ok none
      | .ok (some e') =>
        let fs := (List.range k).map (wholeFrag acc e' n b)
        if uneven then
          .ok (some ((e', fs ++ [lastFrag acc e' n b k]),
            ⟨(b + k) * acc + (bs - (acc - e.hdr) - ((k : Int) - 1) * acc), p.rank, b + k⟩))
        else .ok (some ((e', fs), ⟨(b + k) * acc, p.rank, b + k⟩))

/-- parfu_file_list_utils.cc:687-1168, the loop. -/
def splitLoop (bl acc : Int) (pad : Bytes) (p : LPos) : List Frag → Res (Option (List (Frag × List Frag) × LPos))
  | [] => .ok (some ([], p))
  | e :: es =>
    match placeEntry bl acc pad p e with
    | .error x => .error x
    | .ok none => .ok none
    | .ok (some (g, q)) =>
      match splitLoop bl acc pad q es with
      | .error x => .error x
      | .ok none => .ok none
      | .ok (some (gs, r)) => .ok (some (g :: gs, r))

/-- parfu_file_list_utils.cc:632-1172 `parfu_set_offsets_and_split_ffel`: NULL return, or for each
entry its updated version and its fragments (the returned list is all fragments in order), and the
final positions (`*n_rank_buckets` is the bucket).  Adding to the output list never fails once it has
been created (C38).
Simplification: the input list is given by its entries. -/
def splitList (bl acc : Int) (pad : Bytes) (es : List Frag) : Res (Option (List (Frag × List Frag) × LPos)) :=
  match createList es.length with
  | .error x => .error x
  | .ok none => .ok none
  | .ok (some _) => splitLoop bl acc pad ⟨0, 0, 0⟩ es

/-- The list `parfu_set_offsets_and_split_ffel` returns: all fragments, in order. -/
abbrev outFrags (gs : List (Frag × List Frag)) : List Frag := gs.flatMap Prod.snd

end Parfu
