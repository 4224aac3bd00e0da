import Verif.Model.Scalar

/-!
# The C++ random library, as far as the code uses it

`std::mt19937`, `std::normal_distribution`, `std::uniform_real_distribution` are external: they are
parameters of the model. `normal_distribution` objects carry state (libstdc++ caches the second
variate of a pair); every call of the library creates a fresh distribution object.
-/

namespace PW

/-- The random number library. -/
structure Rng (F : Type) where
  /-- state of `std::mt19937` -/
  G : Type
  /-- state of a `std::normal_distribution<double>` object -/
  N : Type
  /-- `std::mt19937(seed)`; the argument is converted to the 32-bit `result_type` -/
  seed : BitVec 32 → G
  /-- a freshly constructed `normal_distribution<double> dis(0.0, 1.0)` -/
  normalInit : N
  /-- one call `dis(gen)` -/
  normal : N → G → F × N × G
  /-- one call of `uniform_real_distribution<> dis(0.0, 1.0)` -/
  uniform : G → F × G

namespace Rng
variable {F : Type} (r : Rng F)

/-- State of the distribution object and the generator after `i` calls `dis(gen)`, starting from a
fresh distribution object. -/
def normalState (g : r.G) : ℕ → r.N × r.G
  | 0 => (r.normalInit, g)
  | i + 1 =>
    let s := normalState g i
    (r.normal s.1 s.2).2

/-- `generateGaussianRV`: `d` draws with one fresh `normal_distribution` object.
src/dense/BarrierWalk.cpp:7-14, src/sparse/SparseRandomWalk.cpp:3-10. The C++ loop writes `v(i)`
for `i = 0 … d-1`; entry `i` is the `i`-th draw. -/
def gaussian (d : ℕ) (g : r.G) : (Fin d → F) × r.G :=
  (fun i => (r.normal (r.normalState g i).1 (r.normalState g i).2).1, (r.normalState g d).2)

/-- `generateGaussianRVNorm`: a Gaussian vector divided by its norm.
src/dense/RandomWalk.cpp:7-14. -/
def gaussianNorm [Scalar F] (d : ℕ) (g : r.G) : (Fin d → F) × r.G :=
  let v := (r.gaussian d g).1
  (fun i => v i / norm2 v, (r.gaussian d g).2)

/-- `initializeRNG`: `rd` is the word `std::random_device` would return.
src/dense/RandomWalk.cpp:26-33, src/sparse/SparseRandomWalk.cpp:35-42. The `int` seed is converted to
the unsigned 32-bit seed type (modulo 2^32). -/
def initRng (seed : Int) (rd : BitVec 32) : r.G :=
  if seed ≠ -1 then r.seed (BitVec.ofInt 32 seed) else r.seed rd

end Rng
end PW
