import Mathlib.Data.List.Basic

/-!
# Use of files and memory

A function acquires a resource by `fopen` or `malloc` and releases it by `fclose` or `free`. To release what is not held is
undefined behaviour: that includes a second `fclose` of a stream whose first `fclose` failed (C11 7.21.5.1: the stream is
disassociated whether or not the call succeeds).
-/

namespace Verif.Resources

/-- A file, or the `k`-th block of memory of a call. -/
inductive Resource
  | file
  | memory (k : ℕ)
  deriving DecidableEq

inductive Event
  | acquire (r : Resource)
  | release (r : Resource)
  deriving DecidableEq

/-- What is held after the events, when `live` is held before them; `none` if something is released that is not held. -/
def held : List Resource → List Event → Option (List Resource)
  | live, [] => some live
  | live, .acquire r :: es => held (r :: live) es
  | live, .release r :: es => if r ∈ live then held (live.erase r) es else none

end Verif.Resources
