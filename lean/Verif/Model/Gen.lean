/-
Model of the random data generators of `src/util/mod.rs`. What the random number generator delivers is a parameter: the stream of
samples, numbers in the range of the distribution. Nothing is assumed about their probabilities.
-/
import Verif.Model.Util

set_option linter.unusedSectionVars false

namespace AQ
open Prog
variable {K : Type} [Field K] [LinearOrder K] [IsStrictOrderedRing K] [FloatFmt K]

/-- `gen_uniform_vec` (src/util/mod.rs:24-33): `u i` is the `i`-th sample of `Uniform::from(0.0..1001.0)`, an `f64`, converted by
`F::from`. The range `0..size` is empty when `size` (an `i32`) is negative. -/
def genUniformVec (u : Nat → K) (size : Int) : List (Fl K) :=
  (List.range size.toNat).map (fun i => Fl.ofF64 (.fin (u i)))

/-- `gen_uniform_tan_vec` (src/util/mod.rs:38-47). The tangent of the standard library is a parameter. -/
def genUniformTanVec (tan : K → Fl K) (u : Nat → K) (size : Int) : List (Fl K) :=
  (List.range size.toNat).map (fun i => Fl.ofF64 (tan (u i)))

/-- `gen_uniform_exp_vec` (src/util/mod.rs:53-63): `e i` is the `i`-th sample of the exponential distribution. `Exp::new` refuses
numbers that are not positive (later patch versions of `rand_distr` accept zero). -/
def genUniformExpVec (e : Nat → K) (size : Int) (lambda : Fl K) : Prog (List (Fl K)) :=
  if Fl.lt (.fin 0) lambda then
    .ret ((List.range size.toNat).map (fun i => Fl.ofF64 (FloatFmt.rnd64 (-(e i) - 1))))
  else .fail .unwrap

/-- `gen_uniform_centroid_vec` (src/util/mod.rs:91-102). -/
def genUniformCentroidVec (u : Nat → K) (size : Int) : List (Centroid K) :=
  (genUniformVec u size).map (fun x => ⟨x, Fl.lit 1⟩)

/-- `gen_uniform_centroid_random_weight_vec` (src/util/mod.rs:107-119): mean and weight of each centroid are two successive samples. -/
def genUniformCentroidRandomWeightVec (u : Nat → K) (size : Int) : List (Centroid K) :=
  (List.range size.toNat).map (fun i => ⟨Fl.ofF64 (.fin (u (2 * i))), Fl.ofF64 (.fin (u (2 * i + 1)))⟩)

end AQ
