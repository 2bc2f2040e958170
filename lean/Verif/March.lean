/-
Model of the transfer-order messages of parfu 0.6: how the boss prints orders
(parfu_file_system_classes.cc:934-973), how a message travels
(parfu_boss_functions.cc:28-87, parfu_worker_node.cc) and how the worker parses it
(Parfu_rank_order_set, parfu_rank_move_data.cc:25-95).
-/
import Verif.Plan
import Verif.Num
set_option autoImplicit false

namespace Parfu

/-- parfu_file_system_classes.cc:39-50 `type_char` with parfu_main.hh's characters. -/
def typeChar : Kind → UInt8
  | .dir => 68
  | .lnk => 76
  | .reg => 70
  | .other => 88

/-- parfu_file_system_classes.cc:945-973 `print_marching_order_raw`: the fields separated by TAB and
ended by newline. -/
def printOrder (o : Order) : Bytes :=
  decInt o.idx ++ [9] ++ o.rel ++ [9] ++ [typeChar o.kind] ++ [9] ++ o.target ++ [9] ++
  digits 10 o.size ++ [9] ++ digits 10 o.hdr ++ [9] ++ digits 10 o.pos ++ [9] ++
  digits 10 o.off ++ [10]

/-- A bundle: the lines one after the other (the `.append` calls of create_transfer_orders, e.g.
parfu_file_system_classes.cc:771, 784-785). -/
def printBundle (os : List Order) : Bytes := os.flatMap printOrder

/-- parfu_boss_functions.cc:41-52, 72-83: instruction, message and the terminating NUL. -/
def sendMsg (instr msg : Bytes) : Bytes := instr ++ msg ++ [0]

/-- parfu_worker_node.cc:134, 203 `message_string = string(message_buffer)`: up to the first NUL. -/
def recvMsg (b : Bytes) : Bytes := b.takeWhile (· ≠ 0)

/-- parfu_rank_move_data.hh:38-47 `parfu_move_order_t`. -/
structure WOrder where
  idx : Int
  rel : Bytes
  type : UInt8
  target : Bytes
  size : Nat
  hdr : Nat
  pos : Nat
  off : Nat
  deriving DecidableEq, Repr

/-- The locale-"C" white space that `strtol` skips. -/
def isSpace (c : UInt8) : Bool := c == 32 || (decide (9 ≤ c.toNat) && decide (c.toNat ≤ 13))

/-- `std::stoi(s)`: white space, optional sign, the longest run of digits; throws
`invalid_argument` without digits and `out_of_range` outside `int`. -/
def stoi (s : Bytes) : Res Int :=
  let t := s.dropWhile isSpace
  let neg := t.head? == some 45
  let u := if t.head? = some 45 ∨ t.head? = some 43 then t.drop 1 else t
  match readNum 10 u with
  | none => .error .thrown
  | some (n, _) =>
    let v : Int := if neg then -(n : Int) else (n : Int)
    if -(2 ^ 31) ≤ v ∧ v < 2 ^ 31 then .ok v else .error .thrown

/-- `string::npos` stored in a 32-bit `unsigned`. -/
def npos32 : Nat := 2 ^ 32 - 1

/-- `unsigned p = buf.find(c, from)`: a position of at least 2^32 is truncated, and "not found" is
`npos` truncated. -/
def find32 (buf : Bytes) (c : UInt8) (fro : Nat) : Nat :=
  if c ∈ buf.drop fro then (fro + (buf.drop fro).idxOf c) % 2 ^ 32 else npos32

/-- `buf.substr(b, e - b)` with `unsigned` `b`, `e`: throws if `b` is past the end. -/
def substr32 (buf : Bytes) (b e : Nat) : Res Bytes :=
  if b > buf.length then .error .thrown
  else .ok ((buf.drop b).take ((2 ^ 32 + e - b) % 2 ^ 32))

/-- parfu_rank_move_data.cc:44-48 etc., one "grab": find the separator from `eb`, take the text up to it,
and step over the separator (`entry_begin = entry_end + 1` in `unsigned`). -/
def nextField (buf : Bytes) (sep : UInt8) (eb : Nat) : Res (Bytes × Nat) :=
  match substr32 buf eb (find32 buf sep eb) with
  | .error e => .error e
  | .ok s => .ok (s, (find32 buf sep eb + 1) % 2 ^ 32)

/-- parfu_rank_move_data.cc:33-90: the body of the `while` loop started with `line_begin = lb`; gives
the order that is pushed and the new `line_begin`. -/
def parseLine (buf : Bytes) (lb : Nat) : Res (WOrder × Nat) :=
  if find32 buf 10 lb > buf.length then .error .thrown else do
  let f0 ← nextField buf 9 lb
  let idx ← stoi f0.1
  let f1 ← nextField buf 9 f0.2
  let f2 ← nextField buf 9 f1.2
  let ty ← (match f2.1.head? with | some c => .ok c | none => .error Err.thrown : Res UInt8)
  let f3 ← nextField buf 9 f2.2
  let f4 ← nextField buf 9 f3.2
  let size ← stoi f4.1
  let f5 ← nextField buf 9 f4.2
  let hdr ← stoi f5.1
  let f6 ← nextField buf 9 f5.2
  let pos ← stoi f6.1
  let f7 ← nextField buf 10 f6.2
  let off ← stoi f7.1
  return ({ idx := idx, rel := f1.1, type := ty, target := f3.1, size := u64 size,
            hdr := (hdr % 2 ^ 32).toNat, pos := u64 pos, off := u64 off }, f7.2)

/-- parfu_rank_move_data.cc:32-91: the `while` loop, at most `fuel` iterations; `hang` is running
out of fuel. -/
def parseLoop (buf : Bytes) : Nat → Nat → Res (List WOrder)
  | 0, lb => if lb < buf.length then .error .hang else .ok []
  | fuel + 1, lb =>
    if lb < buf.length then
      match parseLine buf lb with
      | .error e => .error e
      | .ok (w, lb') =>
        match parseLoop buf fuel lb' with
        | .error e => .error e
        | .ok ws => .ok (w :: ws)
    else .ok []

/-- parfu_rank_move_data.cc:25-95 `Parfu_rank_order_set(string)`.  The state of the loop is
`line_begin` alone, so a run that does not stop within `length` iterations never stops
(`PropsMarch.parse_hang_forever`). -/
def parseOrders (buf : Bytes) : Res (List WOrder) := parseLoop buf buf.length 0

end Parfu
