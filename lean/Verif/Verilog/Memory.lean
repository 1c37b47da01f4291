import Verif.Verilog.Sem
/-!
# Memories in Verilog

An unpacked array `logic[w-1:0] m[len-1:0]` (IEEE 1800-2017 7.4), written by an `always @(posedge
clk)` block of the form

    if (we0) begin m[addr0] <= data0; end
    if (we1) begin m[addr1] <= data1; end

All expressions are evaluated before anything is stored, and the stores take place in the order of
the statements, so that the last one to an address counts (10.4.2).  Stores outside of the array
have no effect and reads outside of it give undefined bits (7.4.5).
-/
namespace Spade.Verilog

/-- The word at address `a`, if the words of a memory are listed one after the other. -/
def word (w : Nat) (bs : Bits) (a : Nat) : Bits := (bs.drop (a * w)).take w

theorem word_length {w len a : Nat} {bs : Bits} (h : bs.length = w * len) (ha : a < len) :
    (word w bs a).length = w := by
  have : (a + 1) * w ≤ len * w := Nat.mul_le_mul_right w ha
  rw [Nat.add_mul, Nat.one_mul, Nat.mul_comm len] at this
  simp only [word, List.length_take, List.length_drop, h]
  omega

/-- The first `n` words one after the other. -/
def words (f : Nat → Bits) : Nat → Bits
  | 0 => []
  | n + 1 => words f n ++ f n

theorem words_length {w : Nat} {f : Nat → Bits} : ∀ {n : Nat}, (∀ a, a < n → (f a).length = w) →
    (words f n).length = w * n
  | 0, _ => rfl
  | n + 1, h => by
    rw [words, List.length_append, words_length fun a ha => h a (by omega), h n (by omega), Nat.mul_succ]

theorem word_words {w : Nat} {f : Nat → Bits} : ∀ {n a : Nat}, (∀ a, a < n → (f a).length = w) →
    a < n → word w (words f n) a = f a
  | n + 1, a, h, ha => by
    have hl := words_length (n := n) fun a ha => h a (by omega)
    have hn := h n (by omega)
    rcases Nat.lt_or_ge a n with h' | h'
    · have ih := word_words (n := n) (fun a ha => h a (by omega)) h'
      have hle : (a + 1) * w ≤ n * w := Nat.mul_le_mul_right w h'
      rw [Nat.add_mul, Nat.one_mul, Nat.mul_comm n] at hle
      rw [← ih, words, word, word, List.drop_append_of_le_length (by omega),
        List.take_append_of_le_length (by rw [List.length_drop]; omega)]
    · have : a = n := by omega
      subst this
      have hd : (words f a ++ f a).drop (a * w) = f a := by
        rw [Nat.mul_comm, ← hl, List.drop_left]
      rw [words, word, hd, List.take_of_length_le (by omega)]

/-- `if (we) begin m[addr] <= data; end`. -/
structure MemPort where
  we : VExpr
  addr : VExpr
  data : VExpr

/-- What is stored in a memory after `if (we) begin m[addr] <= data; end`. -/
def MemPort.store (ρ : Env) (xs : Nat → Bool) (w : Nat) (p : MemPort) (m : Nat → Bits) :
    Option (Nat → Bits) := do
  let c ← p.we.value ρ xs
  let a ← p.addr.value ρ xs
  let d ← assigned ρ xs w p.data
  some fun k => if truth c ∧ k = toNat a then d else m k

/-- What is stored in a memory after all statements. -/
def storeAll (ρ : Env) (xs : Nat → Bool) (w : Nat) : List MemPort → (Nat → Bits) →
    Option (Nat → Bits)
  | [], m => some m
  | p :: ps, m => do
    let m' ← p.store ρ xs w m
    storeAll ρ xs w ps m'

end Spade.Verilog
