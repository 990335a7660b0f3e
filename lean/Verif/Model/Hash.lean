import Mathlib.Data.List.Defs

/-!
# Hashing of pairs and matrices

Models `src/theia/util/hash.h`. The hash functions of the components are those of the standard library and are
parameters; `size_t` has 64 bits.
-/

namespace Theia
namespace Hash

/-- A `size_t`. -/
abbrev Word := BitVec 64

/-- `HashCombine` (hash.h:48-51); `h` is `hasher(v)`. -/
def hashCombine (h seed : Word) : Word :=
  seed ^^^ (h + 0x9e3779b9#64 + (seed <<< 6) + (seed >>> 2))

/-- `hash<std::pair<T1, T2>>` (hash.h:56-64). -/
def pairHash {α β : Type*} (h₁ : α → Word) (h₂ : β → Word) (e : α × β) : Word :=
  let seed := hashCombine (h₁ e.1) 0
  hashCombine (h₂ e.2) seed

/-- `hash<Eigen::Matrix<T, N, M>>` (hash.h:67-77): the entries in the order of storage. -/
def matrixHash {α : Type*} (h : α → Word) (data : List α) : Word :=
  data.foldl (fun seed x => seed ^^^ (h x + 0x9e3779b9#64 + (seed <<< 6) + (seed >>> 2))) 0

end Hash
end Theia
