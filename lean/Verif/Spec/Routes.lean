import Verif.Model.Routes

/-!
# Specification: what the example server's routes are

Written down from the routes as a reader of main.rs sees them, not from the functions of the model.
-/

namespace Measured.Spec
open Measured.Server

/-- The segments of a path. -/
def segments : Bytes → List Bytes
  | [] => [[]]
  | b :: l => if b = 0x2f then [] :: segments l else match segments l with
    | s :: ss => (b :: s) :: ss
    | [] => [[b]]

/-- The segment stands for any other: it begins with `:`. -/
abbrev IsParam (s : Bytes) : Prop := s.head? = some 0x3a

/-- `x` is the path `p` of a route with `v` in the place of the parameter. -/
def Fills (p v x : Bytes) : Prop :=
  List.Forall₂ (fun s t => IsParam s ∧ t = v ∨ ¬ IsParam s ∧ t = s) (segments p) (segments x)

/-- The routes of the server. -/
def routePaths : List Bytes :=
  [b!"/api/v1/users", b!"/api/v1/users/:id", b!"/api/v1/products", b!"/api/v1/products/:id", b!"/api/v1/products/:id/owner",
    b!"/api/v1/products/:id/purchase", b!"/metrics"]

/-- What the routes answer: the path; what `GET` answers if the parameter is not a given word, for those with a parameter;
what `POST` answers, if it is allowed. -/
def routeTable : List (Bytes × Option (Bytes × Nat) × Option Nat) :=
  [(b!"/api/v1/users", none, none), (b!"/api/v1/users/:id", some (b!"current", 400), some 403),
    (b!"/api/v1/products", none, none), (b!"/api/v1/products/:id", some (b!"awesome", 404), some 201),
    (b!"/api/v1/products/:id/owner", some (b!"awesome", 404), none),
    (b!"/api/v1/products/:id/purchase", some (b!"awesome", 404), none), (b!"/metrics", none, none)]

/-- What a method is answered with, if the parameter is the text `v`, or cannot be decoded. -/
inductive Answers (method : Bytes) (v : Option Bytes) : Option (Bytes × Nat) → Option Nat → Nat → Prop
  | always {post : Option Nat} (h : method = b!"GET" ∨ method = b!"HEAD") : Answers method v none post 200
  | yes {w : Bytes} {no : Nat} {post : Option Nat} (h : method = b!"GET" ∨ method = b!"HEAD") (hv : v = some w) :
    Answers method v (some (w, no)) post 200
  | no {w w' : Bytes} {no : Nat} {post : Option Nat} (h : method = b!"GET" ∨ method = b!"HEAD") (hv : v = some w')
    (hw : w' ≠ w) : Answers method v (some (w, no)) post no
  | bad {w : Bytes} {no : Nat} {post : Option Nat} (h : method = b!"GET" ∨ method = b!"HEAD") (hv : v = none) :
    Answers method v (some (w, no)) post 400
  | post {g : Option (Bytes × Nat)} {st : Nat} (h : method = b!"POST") : Answers method v g (some st) st
  | noPost {g : Option (Bytes × Nat)} (h : method = b!"POST") : Answers method v g none 405
  | other {g : Option (Bytes × Nat)} {post : Option Nat}
    (h : method ≠ b!"GET" ∧ method ≠ b!"HEAD" ∧ method ≠ b!"POST") : Answers method v g post 405

/-- What is taken for granted of the search among the routes: what it finds is a route that the path is an instance of, and
it finds something if there is a route that the path is an instance of. (For an empty segment either is allowed.) -/
structure Finds (a : Axum) : Prop where
  sound : ∀ x p v, a.find x = some (p, v) → p ∈ routePaths ∧ Fills p v x
  complete : ∀ x p v, p ∈ routePaths → Fills p v x → v ≠ [] → a.find x ≠ none

/-- The values of the label `path`. -/
def pathLabels : List Bytes := b!"unknown" :: routePaths

/-- The values of the labels `path` and `method`. -/
def requestLabels : List (Bytes × Method) := pathLabels.flatMap fun p => [(p, .get), (p, .post), (p, .other)]

/-- The statuses that there may be for a path and a method. `other` is `HEAD`, which is answered as `GET` is, and what is not
allowed. -/
def answers : List (Bytes × Method × List Nat) :=
  [(b!"/api/v1/users", .get, [200]), (b!"/api/v1/users", .post, [405]), (b!"/api/v1/users", .other, [200, 405]),
    (b!"/api/v1/users/:id", .get, [200, 400]), (b!"/api/v1/users/:id", .post, [403]),
    (b!"/api/v1/users/:id", .other, [200, 400, 405]),
    (b!"/api/v1/products", .get, [200]), (b!"/api/v1/products", .post, [405]), (b!"/api/v1/products", .other, [200, 405]),
    (b!"/api/v1/products/:id", .get, [200, 404, 400]), (b!"/api/v1/products/:id", .post, [201]),
    (b!"/api/v1/products/:id", .other, [200, 404, 400, 405]),
    (b!"/api/v1/products/:id/owner", .get, [200, 404, 400]), (b!"/api/v1/products/:id/owner", .post, [405]),
    (b!"/api/v1/products/:id/owner", .other, [200, 404, 400, 405]),
    (b!"/api/v1/products/:id/purchase", .get, [200, 404, 400]), (b!"/api/v1/products/:id/purchase", .post, [405]),
    (b!"/api/v1/products/:id/purchase", .other, [200, 404, 400, 405]),
    (b!"/metrics", .get, [200]), (b!"/metrics", .post, [405]), (b!"/metrics", .other, [200, 405]),
    (b!"unknown", .get, [404]), (b!"unknown", .post, [404]), (b!"unknown", .other, [404])]

/-- The values of the labels `path`, `method` and `status`. -/
def responseLabels : List (Bytes × Method × Nat) := answers.flatMap fun p => p.2.2.map fun st => (p.1, p.2.1, st)

example : requestLabels.length = 24 := by decide
example : responseLabels.length = 45 := by decide

end Measured.Spec
