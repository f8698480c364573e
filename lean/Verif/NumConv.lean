/-
Model of treebeard/numconv.py.

Characters are code points (`Nat`), strings are lists of them.
-/
import Verif.Common

namespace Verif.NumConv

/-- numconv.py:22-29 `NumConv.__init__`: duplicate characters raise ValueError.  The converter is
represented by its alphabet; `radix` is its length and `cached_map` is `digit`. -/
def new (alphabet : List Nat) : Except Err (List Nat) :=
  if alphabet.Nodup then .ok alphabet else .error .valueError

/-- numconv.py:42-46, the `while True` loop of `int2str`.  The first argument is fuel: running out of
it stands for non-termination (`int2str_diverges` shows that this is right: it happens only
for one-letter alphabets, and then whatever the fuel).  `num % 0` is ZeroDivisionError. -/
def int2strLoop (a : List Nat) : Nat → Nat → List Nat → Except Err (List Nat)
  | 0, _, _ => .error .diverges
  | fuel + 1, num, ret =>
    if a.length = 0 then .error .zeroDivision
    else
      match a[num % a.length]? with
      | none => .error .indexError
      | some c =>
        let ret := c :: ret
        if num < a.length then .ok ret else int2strLoop a fuel (num / a.length) ret

/-- numconv.py:31-46 `int2str` -/
def int2str (a : List Nat) (num : Int) : Except Err (List Nat) :=
  if num < 0 then .error .valueError else int2strLoop a (num.toNat + 1) num.toNat []

/-- numconv.py:29 `cached_map[char]` -/
def digit (a : List Nat) (c : Nat) : Option Nat := a.findIdx? (· == c)

/-- numconv.py:56-61, the loop of `str2int` -/
def str2intLoop (a : List Nat) : Nat → List Nat → Except Err Nat
  | ret, [] => .ok ret
  | ret, c :: cs =>
    match digit a c with
    | none => .error .valueError
    | some d => str2intLoop a (ret * a.length + d) cs

/-- numconv.py:48-61 `str2int` -/
def str2int (a : List Nat) (chars : List Nat) : Except Err Nat := str2intLoop a 0 chars

end Verif.NumConv
