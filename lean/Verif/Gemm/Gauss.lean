/-! Gaussian integers, to have complex elements in examples. -/
namespace Verif.Gemm

open Lean.Grind (CommRing)

structure Gauss where
  re : Int
  im : Int
  deriving DecidableEq

namespace Gauss

theorem eq_of {a b : Gauss} (h1 : a.re = b.re) (h2 : a.im = b.im) : a = b := by cases a; cases b; cases h1; cases h2; rfl

def add (a b : Gauss) : Gauss := ⟨a.re + b.re, a.im + b.im⟩
def mul (a b : Gauss) : Gauss := ⟨a.re * b.re - a.im * b.im, a.re * b.im + a.im * b.re⟩
def lit (n : Int) : Gauss := ⟨n, 0⟩
def smul (n : Int) (a : Gauss) : Gauss := ⟨n * a.re, n * a.im⟩
def neg (a : Gauss) : Gauss := ⟨-a.re, -a.im⟩
def pow (a : Gauss) : Nat → Gauss
  | 0 => lit 1
  | n + 1 => mul (pow a n) a
def conj (a : Gauss) : Gauss := ⟨a.re, -a.im⟩

instance : CommRing Gauss where
  add := add
  mul := mul
  natCast := ⟨fun n => lit n⟩
  ofNat := fun n => ⟨lit n⟩
  nsmul := ⟨fun n a => smul n a⟩
  npow := ⟨pow⟩
  neg := neg
  sub a b := add a (neg b)
  intCast := ⟨lit⟩
  zsmul := ⟨smul⟩
  add_zero a := show add a (lit 0) = a from eq_of (by simp [add, lit]) (by simp [add, lit])
  add_comm a b := show add a b = add b a from eq_of (by simp only [add]; grind) (by simp only [add]; grind)
  add_assoc a b c := show add (add a b) c = add a (add b c) from eq_of (by simp only [add]; grind) (by simp only [add]; grind)
  mul_assoc a b c := show mul (mul a b) c = mul a (mul b c) from eq_of (by simp only [mul]; grind) (by simp only [mul]; grind)
  mul_one a := show mul a (lit 1) = a from eq_of (by simp [mul, lit]) (by simp [mul, lit])
  one_mul a := show mul (lit 1) a = a from eq_of (by simp [mul, lit]) (by simp [mul, lit])
  left_distrib a b c := show mul a (add b c) = add (mul a b) (mul a c) from
    eq_of (by simp only [mul, add]; grind) (by simp only [mul, add]; grind)
  right_distrib a b c := show mul (add a b) c = add (mul a c) (mul b c) from
    eq_of (by simp only [mul, add]; grind) (by simp only [mul, add]; grind)
  zero_mul a := show mul (lit 0) a = lit 0 from eq_of (by simp [mul, lit]) (by simp [mul, lit])
  mul_zero a := show mul a (lit 0) = lit 0 from eq_of (by simp [mul, lit]) (by simp [mul, lit])
  pow_zero _ := rfl
  pow_succ _ _ := rfl
  ofNat_succ n := show lit (n + 1 : Nat) = add (lit n) (lit 1) from eq_of (by simp [lit, add]) (by simp [lit, add])
  ofNat_eq_natCast _ := rfl
  nsmul_eq_natCast_mul n a := show smul n a = mul (lit n) a from eq_of (by simp [smul, mul, lit]) (by simp [smul, mul, lit])
  neg_add_cancel a := show add (neg a) a = lit 0 from eq_of (by simp [add, neg, lit]; omega) (by simp [add, neg, lit]; omega)
  sub_eq_add_neg _ _ := rfl
  neg_zsmul i a := show smul (-i) a = neg (smul i a) from eq_of (Int.neg_mul ..) (Int.neg_mul ..)
  zsmul_natCast_eq_nsmul _ _ := rfl
  intCast_ofNat _ := rfl
  intCast_neg i := show lit (-i) = neg (lit i) from eq_of (by simp [lit, neg]) (by simp [lit, neg])
  mul_comm a b := show mul a b = mul b a from eq_of (by simp only [mul]; grind) (by simp only [mul]; grind)

end Gauss
end Verif.Gemm
