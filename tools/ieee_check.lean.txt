import Verif.Model.Ieee
open Tom
def dec (f : Float) : F64 :=
  let b := f.toBits.toNat
  let s := b >>> 63 == 1
  let e : Nat := (b >>> 52) % 2048
  let m : Nat := b % (2^52 : Nat)
  if e == 2047 then (if m == 0 then .inf s else .nan)
  else if e == 0 then (if m == 0 then .zero s else .num ((if s then -1 else 1) * (m:Rat) * pow2 (-1074)))
  else .num ((if s then -1 else 1) * ((m + 2^52 : Nat) :Rat) * pow2 ((e:Int)-1075))
def rnd (s : Nat) : Nat := (s * 6364136223846793005 + 1442695040888963407) % 2^64
def gen (s : Nat) (k : Nat) : Float :=
  let b := if k % 8 == 0 then s % 2^54  -- subnormals
    else if k % 8 == 1 then (s % 2^52) + (2046 <<< 52)
    else if k % 8 == 2 then (s % 16) <<< 60
    else if k % 8 == 3 then (s % 2^52 / 2^40 * 2^40) + ((1023 + s / 2^56 % 64) <<< 52)
    else if k%8 == 4 then (s % 2^52) + ((1023 + s / 2^56 % 8) <<< 52) + ((s / 2^60 % 2) <<< 63) else s
  Float.ofBits (UInt64.ofNat b)
def run : Nat → Nat → Nat → Nat → IO Nat
 | 0, _, _, bad => pure bad
 | n+1, s, k, bad => do
  let s1 := rnd s; let s2 := rnd s1
  let x := gen (s1 ^^^ (s1 >>> 32)) (s2 >>> 40); let y := gen (s2 ^^^ (s2>>>31)) (s1 >>> 43)
  let mut bad := bad
  let ok := F64.add (dec x) (dec y) == dec (x+y) && F64.sub (dec x) (dec y) == dec (x-y) && F64.mul (dec x) (dec y) == dec (x*y)
   && F64.div (dec x) (dec y) == dec (x/y) && F64.lt (dec x) (dec y) == decide (x<y) && F64.le (dec x) (dec y) == decide (x≤y) && F64.eq (dec x) (dec y) == (x==y)
   && F64.neg (dec x) == dec (-x) && F64.abs (dec x) == dec x.abs
  unless ok do
    bad := bad+1
    if bad < 5 then IO.println s!"{x.toBits} {y.toBits} {x} {y} {x*y}"
  run n s2 (k+1) bad
#eval run 50000 12345 0 0
