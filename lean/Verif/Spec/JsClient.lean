import Verif.Model.JsClient
import Verif.Spec.Http
set_option autoImplicit false
/-! # Specification vocabulary for the JavaScript client -/
namespace Blobd
namespace Http

open MP (Bytes)

/-- the path of a request starts with a slash (always true of HTTP) -/
def Req.pathOk : Req → Prop
  | .batch .. => True
  | .commit p .. | .create p .. | .delete p .. | .inspect p .. | .read p .. | .write p .. => p.head? = some 47

/-- remove dot segments: `.` disappears, `..` takes the segment before it away; a final one leaves an empty segment.
The first list is what has been kept so far, latest first. -/
def resolveDots : List Bytes → List Bytes → List Bytes
  | kept, [] => kept.reverse
  | kept, s :: rest =>
    if s = [46, 46] then resolveDots (if rest = [] then [] :: kept.drop 1 else kept.drop 1) rest
    else if s = [46] then resolveDots (if rest = [] then [] :: kept else kept) rest
    else resolveDots (s :: kept) rest

end Http
end Blobd
