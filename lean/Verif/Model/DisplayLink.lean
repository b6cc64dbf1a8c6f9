import Verif.Go.Url

/-!
# Model of the links of the web display

A link to an object (gocfl/cmd/display/server.go:734 and the templates in data/displaydata/templates) and how the request
finds the id again.
-/

namespace Gocfl

/-- server.go:734 and object.gohtml:102-107: the path of a link to a page of an object; `rest` is what follows the id, empty or
with a slash -/
def objectLink (id rest : Str) : Str := "/object/id/".toList ++ pathEscape id ++ rest

/-- gin with `UseRawPath` and without `UnescapePathValues` (server.go:74-75): the path the routes are compared with -/
def routedPath (raw : Str) : Option Str :=
  (setPath raw).map (fun u => if u.2 = [] then u.1 else u.2)

/-- the parameter `:id` of the routes `/object/id/:id…` (server.go:117-123); it must not be empty -/
def routeId (p : Str) : Option Str :=
  match splitOn '/' p with
  | [] :: a :: b :: id :: _ =>
    if a = "object".toList ∧ b = "id".toList ∧ id ≠ [] then some id else none
  | _ => none

/-- server.go:684-693 and the same lines in all handlers: the id the handler works with -/
def requestedId (raw : Str) : Option Str := (routedPath raw).bind (fun p => (routeId p).bind pathUnescape)

end Gocfl
