import Verif.Model.Server

/-!
# The routes of the example server

examples/axum-server/src/main.rs. The router and the extractors are those of the crate `axum`, and are taken as follows.
`nest` puts a prefix before the paths of routes. A request is given to the route whose path is that of the request, where a
segment that begins with `:` stands for any one segment; `Axum.find` is that search. The handler for `GET` also gets `HEAD`;
a route answers 405 if it has no handler for the method, and 404 is the answer if there is no route. A `Path<String>` is the
segment, percent-decoded; if that is not UTF-8, the answer is 400. A middleware that is added by `layer` is run in all of
these cases; there is a `MatchedPath` exactly if there is a route.
-/

namespace Measured.Server

/-- A handler: always the same status, or `if p.0 == word { yes } else { no }` for a `p: Path<String>`.
examples/axum-server/src/main.rs:60-107 -/
inductive Handler where
  | always (st : Nat)
  | ifParam (word : Bytes) (yes no : Nat)

/-- `get(…)`, or `get(…).post(…)`. examples/axum-server/src/main.rs:38, 60-107 -/
structure MethodRouter where
  get : Handler
  post : Option Handler

/-- The routes of a router. -/
abbrev Router := List (Bytes × MethodRouter)

/-- `axum`: the path of a route of a nested router. -/
def nestedPath (pre path : Bytes) : Bytes :=
  if pre.getLast? = some 0x2f then pre ++ path.dropWhile (· = 0x2f) else if path = b!"/" then pre else pre ++ path

/-- `Router::nest`. -/
def nest (pre : Bytes) (r : Router) : Router := r.map fun p => (nestedPath pre p.1, p.2)

/-- examples/axum-server/src/main.rs:58-72 -/
def users : Router :=
  [(b!"/", ⟨.always 200, none⟩), (b!"/:id", ⟨.ifParam b!"current" 200 400, some (.always 403)⟩)]

/-- examples/axum-server/src/main.rs:74-109 -/
def products : Router :=
  [(b!"/", ⟨.always 200, none⟩), (b!"/:id", ⟨.ifParam b!"awesome" 200 404, some (.always 201)⟩),
    (b!"/:id/owner", ⟨.ifParam b!"awesome" 200 404, none⟩), (b!"/:id/purchase", ⟨.ifParam b!"awesome" 200 404, none⟩)]

/-- examples/axum-server/src/main.rs:52-56 -/
def apiV1 : Router := nest b!"/users" users ++ nest b!"/products" products

/-- The handler of `/metrics` answers with `Response::new`, which has status 200.
examples/axum-server/src/main.rs:34-45, examples/axum-server/src/metrics.rs:97-103 -/
def app : Router := nest b!"/api/v1" apiV1 ++ [(b!"/metrics", ⟨.always 200, none⟩)]

/-- What of the crate `axum` depends on the request: the search among the routes of `app`, which gives the path of the route
and the segment that its parameter stands for; and the percent-decoding of a segment. -/
structure Axum where
  find : Bytes → Option (Bytes × Bytes)
  decode : Bytes → Option Bytes

/-- A request as it comes. -/
structure HttpReq where
  path : Bytes
  method : Bytes

/-- `path` and `method` in the middleware. examples/axum-server/src/metrics.rs:66-74 -/
def HttpReq.req (a : Axum) (q : HttpReq) : Req :=
  ⟨match a.find q.path with | some (p, _) => p | none => b!"unknown", .ofHttp q.method⟩

/-- The status a handler answers with. examples/axum-server/src/main.rs:60-107 -/
def Handler.status (a : Axum) (v : Bytes) : Handler → Nat
  | .always st => st
  | .ifParam word yes no => match a.decode v with
    | some p => if p = word then yes else no
    | none => 400

/-- The status a route answers with. -/
def MethodRouter.status (a : Axum) (v method : Bytes) (h : MethodRouter) : Nat :=
  if method = b!"GET" ∨ method = b!"HEAD" then h.get.status a v
  else match h.post with
    | some h => if method = b!"POST" then h.status a v else 405
    | none => 405

/-- The status a request is answered with. -/
def HttpReq.status (a : Axum) (q : HttpReq) : Nat :=
  match a.find q.path with
  | none => 404
  | some (p, v) => match app.lookup p with
    | none => 404
    | some h => h.status a v q.method

/-- The requests of a run came by HTTP, and were answered by the routes. -/
def FromHttp (a : Axum) (q : Conc.Tid → HttpReq) (tr : List Event) : Prop :=
  (∀ x r, .begin x r ∈ tr → r = (q x).req a) ∧ ∀ x st, .answer x st ∈ tr → st = (q x).status a

end Measured.Server
