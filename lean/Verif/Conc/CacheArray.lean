/-
Model of `cache_aligned_array<T,N>` (include/boost/unordered/detail/foa/concurrent_table.hpp:77-105), the storage of the
mutexes of a concurrent container (`multimutex`, lines 107-124) and of its group access/insertion-counter arrays.

Addresses are natural numbers (no wrap-around: a C++ object never straddles the end of the address space). `base` is the address
of the member `buf`, an `unsigned char` array, hence without any alignment.
-/
import Verif.SpecLife

namespace Conc.CacheArray
open SpecLife

/-- concurrent_table.hpp:77 `cacheline_size`. -/
def cacheline : Nat := 64

/-- concurrent_table.hpp:91-92 `element_offset`. -/
def elementOffset (sz : Nat) : Nat := (sz + cacheline - 1) / cacheline * cacheline

/-- concurrent_table.hpp:104 size of `buf`. -/
def bufSize (sz N : Nat) : Nat := elementOffset sz * N + cacheline - 1

/-- concurrent_table.hpp:96-102 `data(pos)`, also `operator[]` (line 88). -/
def data (sz base pos : Nat) : Nat := (base + cacheline - 1) / cacheline * cacheline + pos * elementOffset sz

/-- concurrent_table.hpp:83 the loop of the constructor from `n` on: `for(n=0;n<N;) ::new (data(n++)) T()`.
`fuel` bounds the number of rounds; `ctor` gives `N`, exactly the number the loop needs. -/
def ctorFrom (sz base N : Nat) : (fuel n : Nat) → List Ev
  | 0, _ => []
  | fuel + 1, n => if n < N then .construct (data sz base n) :: ctorFrom sz base N fuel (n + 1) else []

/-- concurrent_table.hpp:83 constructor. -/
def ctor (sz base N : Nat) : List Ev := ctorFrom sz base N N 0

/-- concurrent_table.hpp:84 destructor: `for(auto n=N;n>0;) data(n--)->~T()`; `data` gets the value of `n` before the decrement. -/
def dtor (sz base : Nat) : (n : Nat) → List Ev
  | 0 => []
  | n + 1 => .destroy (data sz base (n + 1)) :: dtor sz base n

/-- What the destructor would be with `--n`: the loop `multimutex::unlock` (line 120) uses. Not part of the code; used to state
which destructor would be right. -/
def dtorFixed (sz base : Nat) : (n : Nat) → List Ev
  | 0 => []
  | n + 1 => .destroy (data sz base n) :: dtorFixed sz base n

end Conc.CacheArray
