import Verif.Fifo.Spec
/-!
# Model of `std::mem::fifo`

spade-compiler/stdlib/mem.spade, cdc.spade and num.spade.  Numbers `uint<W>` are bit vectors; `+` on
them gives one bit more, which `trunc` drops again.  The state of the FIFO consists of the registers
of all instances and the memory.  Registers that are clocked by one clock and sample a signal of the
other clock domain see the bits before the edge if the other clock does not rise at the same time,
and otherwise each bit is old or new (`Luck`); in the semantics of the generated Verilog they are all
old.
-/
namespace Spade.Fifo

/-- `uint<N>::to_gray` (num.spade:250-252). -/
def toGray {n} (x : BitVec n) : BitVec n := (x >>> 1) ^^^ x

/-- `gray_to_bin_impl` (num.spade:401-414), called from `Gray<N>::to_uint` (377-379). -/
def grayToBin : (n : Nat) → BitVec n → BitVec n
  | 0, gray => gray
  | 1, gray => gray
  | n + 2, gray =>
    let zeros : BitVec (n + 1) := 0
    let high : BitVec (n + 2) := gray &&& ((1#1 ++ zeros).cast (by omega))
    let lower : BitVec (n + 1) := (gray ^^^ (high >>> 1)).setWidth (n + 1)
    high ||| (grayToBin (n + 1) lower).setWidth (n + 2)

/-- The registers that `write_clk` clocks: `write_ptr` (mem.spade:198-201), the register `gray` that
the write pointer is put in by the `sync_uint_counter` of `fifo_read` (cdc.spade:23, mem.spade:133-139),
and the two registers of the `sync2` in the `sync_uint_counter` of `fifo_write` (cdc.spade:14-15,
mem.spade:184-190). -/
structure WSide (W : Nat) where
  ptr : BitVec W
  gray : BitVec W
  sync1 : BitVec W
  sync2 : BitVec W

/-- The registers that `read_clk` clocks: `read_ptr` (mem.spade:151), the `gray` and `sync2` registers
of the other directions, and `read_result` of `dp_bram` (mem.spade:85). -/
structure RSide (W : Nat) (D : Type) where
  ptr : BitVec W
  gray : BitVec W
  sync1 : BitVec W
  sync2 : BitVec W
  out : D

/-- State of a FIFO: the registers of both domains and the memory of `dp_bram` (mem.spade:83). -/
structure State (W : Nat) (D : Type) where
  w : WSide W
  r : RSide W D
  mem : Nat → D

/-- `full` (mem.spade:196). -/
def WSide.full {W} (s : WSide W) : Bool := s.ptr + 1 == grayToBin W s.sync2

/-- The match in the definition of `write_ptr` and of `mem.write` (mem.spade:198-207). -/
def WSide.accepts {W D} (s : WSide W) (v : Option D) : Option D :=
  match v, s.full with
  | some v, false => some v
  | _, _ => none

/-- `write_ptr` in `fifo_read`: the synchronised one (mem.spade:133-139). -/
def RSide.wptr {W D} (s : RSide W D) : BitVec W := grayToBin W s.sync2

/-- `empty` (mem.spade:145). -/
def RSide.empty {W D} (s : RSide W D) : Bool := s.wptr == s.ptr

/-- `read_ptr_next` (mem.spade:146-150). -/
def RSide.next {W D} (s : RSide W D) (ack : Bool) : BitVec W :=
  match ack, s.empty with
  | true, true => s.ptr
  | true, false => s.ptr + 1
  | false, _ => s.ptr

/-- `num_elements` (mem.spade:155-166).  `uint<W> + 0` has `W + 1` bits, adding `C` gives `W + 2`, and
the difference has `W + 3`. -/
def RSide.num {W D} (C : Nat) (s : RSide W D) : BitVec W :=
  let abs : BitVec (W + 2) :=
    if s.wptr < s.ptr then (s.wptr.setWidth (W + 1) + 0).setWidth (W + 2) + BitVec.ofNat (W + 2) C
    else s.wptr.setWidth (W + 2)
  (abs.setWidth (W + 3) - s.ptr.setWidth (W + 3)).setWidth W

/-- The signals on the ports (mem.spade:170-174, 210-213). -/
def State.ports {W D} (C : Nat) (s : State W D) : Ports D :=
  { full := s.w.full
    read := if s.r.empty then none else some s.r.out
    num := (s.r.num C).toNat }

/-- The registers of the write domain at an edge of `write_clk`; `seen` is the Gray coded read pointer
that is sampled. -/
def WSide.edge {W D} (s : WSide W) (v : Option D) (rst : Bool) (seen : BitVec W) : WSide W :=
  { ptr := if rst then 0 else if (s.accepts v).isSome then s.ptr + 1 else s.ptr
    gray := toGray s.ptr
    sync1 := seen
    sync2 := s.sync1 }

/-- The registers of the read domain at an edge of `read_clk`; `seen` is the Gray coded write pointer
that is sampled and `data` the data that the memory gives.  The pointer is given to the memory one
edge before the data is read, so that `out` is `read_result` (`ReadPort::read`, mem.spade:54-60,
`read_read_port`, 64-68, 153). -/
def RSide.edge {W D} (s : RSide W D) (ack rst : Bool) (seen : BitVec W) (data : D) : RSide W D :=
  { ptr := if rst then 0 else s.next ack
    gray := toGray s.ptr
    sync1 := seen
    sync2 := s.sync1
    out := data }

/-- The memory at an edge of `write_clk` (`dp_bram`, mem.spade:77-83): addresses that do not exist are
not written.  The write is not disabled during a reset. -/
def State.written {W D} (C : Nat) (s : State W D) (v : Option D) : Nat → D := fun a =>
  match s.w.accepts v with
  | some d => if a = s.w.ptr.toNat ∧ a < C then d else s.mem a
  | none => s.mem a

/-- The data that `read_memory` gives for an address (mem.spade:85). -/
def State.fetch {W D} (C : Nat) (s : State W D) (a : BitVec W) (junk : D) : D :=
  if a.toNat < C then s.mem a.toNat else junk

/-- Each bit is either the old or the new one, according to the bits of `pick`. -/
def mix {n} (pick : Nat) (old new : BitVec n) : BitVec n :=
  (old &&& ~~~(BitVec.ofNat n pick)) ||| (new &&& BitVec.ofNat n pick)

/-- `fifo` (mem.spade:219-234) at an edge. -/
def State.step {W D} (C : Nat) (s : State W D) : Edge D → State W D
  | .write v rst => { w := s.w.edge v rst s.r.gray, r := s.r, mem := s.written C v }
  | .read ack rst l =>
    { w := s.w, r := s.r.edge ack rst s.w.gray (s.fetch C (s.r.next ack) l.data), mem := s.mem }
  | .both v wrst ack rrst l =>
    let data :=
      -- "If writes and reads happen to the same address, the behaviour is undefined."
      if (s.w.accepts v).isSome ∧ s.w.ptr = s.r.next ack then l.data
      else s.fetch C (s.r.next ack) l.data
    { w := s.w.edge v wrst (mix l.bitsR s.r.gray (toGray s.r.ptr))
      r := s.r.edge ack rrst (mix l.bitsW s.w.gray (toGray s.w.ptr)) data
      mem := s.written C v }

/-- A history. -/
def State.run {W D} (C : Nat) : State W D → List (Edge D) → State W D
  | s, [] => s
  | s, e :: es => (s.step C e).run C es

/-- What can be seen of a history. -/
def State.trace {W D} (C : Nat) : State W D → List (Edge D) → Trace D
  | _, [] => []
  | s, e :: es => (s.ports C, e) :: (s.step C e).trace C es

end Spade.Fifo
