import Verif.Base
/-!
# `std::filesystem::path` concatenation
-/

namespace Verif.Model
open Verif

/-- `operator/` of `std::filesystem::path` on POSIX ([fs.path.append]): an absolute right side replaces
the left, otherwise a separator is put between unless the left side is empty or ends with one. Used at
watcher.hpp:1467-1468. -/
def pathJoin (a b : Str) : Str :=
  if b.head? = some 47 then b
  else if a = [] then b
  else if a.getLast? = some 47 then a ++ b
  else a ++ b!"/" ++ b

end Verif.Model
