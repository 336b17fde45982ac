import Verif.Model.Group
import Verif.Spec.Exposition
import Verif.Spec.GroupLaws
import Verif.Spec.VecMap

/-!
# Specification of metric groups

A group is a list of items in declaration order, each with the namespaces around it, outermost first.
-/

namespace Measured.Spec

/-- What a group consists of. -/
inductive Item : Type 1 where
  /-- a metric field -/
  | field (path : List Bytes) (name : Bytes) (docs : List (List Char)) (f : Fam)
  /-- calls made by a hand-written group -/
  | manual (path : List Bytes) (calls : List EncCall)

def Item.within (ns : Bytes) : Item → Item
  | .field path name docs f => .field (ns :: path) name docs f
  | .manual path calls => .manual (ns :: path) calls

mutual
def items : Group → List Item
  | .derived fs => itemsF fs
  | .composed a b => items a ++ items b
  | .namespaced ns g => (items g).map (Item.within ns)
  | .absent => []
  | .present g => items g
  | .pointer g => items g
  | .manual calls => [.manual [] calls]

def itemsF : Fields → List Item
  | .nil => []
  | .metric name docs f rest => .field [] name docs f :: itemsF rest
  | .flatten g rest => items g ++ itemsF rest
  | .namespaced ns g rest => (items g).map (Item.within ns) ++ itemsF rest
end

/-- A name inside namespaces, outermost first. -/
def inPath (path : List Bytes) (n : Name) : Name := path.foldr Name.ns n

def callInPath (path : List Bytes) : EncCall → EncCall
  | .help n t => .help (inPath path n) t
  | .type k n => .type k (inPath path n)
  | .sample x ls n => .sample x ls (inPath path n)

/-- The characters with the Unicode property `White_Space`. -/
def WhiteSpace (c : Char) : Prop :=
  c.toNat ∈ [0x09, 0x0a, 0x0b, 0x0c, 0x0d, 0x20, 0x85, 0xa0, 0x1680, 0x2000, 0x2001, 0x2002, 0x2003, 0x2004, 0x2005, 0x2006,
    0x2007, 0x2008, 0x2009, 0x200a, 0x2028, 0x2029, 0x202f, 0x205f, 0x3000]

/-- `t` is `d` without the white space at its ends. -/
def Trimmed (d t : List Char) : Prop :=
  ∃ pre post, d = pre ++ t ++ post ∧ (∀ c ∈ pre, WhiteSpace c) ∧ (∀ c ∈ post, WhiteSpace c) ∧
    (∀ c, t.head? = some c → ¬ WhiteSpace c) ∧ ∀ c, t.getLast? = some c → ¬ WhiteSpace c

/-- The help text of a field with these doc attributes. -/
def HelpOf (docs : List (List Char)) (help : Option Bytes) : Prop :=
  (docs = [] ∧ help = none) ∨ (docs ≠ [] ∧ ∃ t, Trimmed docs.flatten t ∧ help = some (utf8 t))

/-- `v` is a vector some program may have produced, and `live` are its labels according to the abstract map. -/
def VecLive {S G U M : Type} (t : GroupSet S G U) (v : MetricVec S U M) (live : G → Option M) : Prop :=
  ∃ (_ : DecidableEq U) (_ : DecidableEq G) (m : Mode) (p : Nat) (hasher : U → Nat) (dflt : M) (inv : S → Prop)
    (le : S → S → Prop) (valid : S → U → Prop) (s : S) (dense : Bool) (v₀ : MetricVec S U M) (ops : List (VecOp G M)),
    0 < p ∧ p ≤ 2 ^ 55 ∧ GroupSetLaws t inv le valid ∧ inv s ∧ Created m p t s dense v₀ ∧
    v = (vecRun m hasher dflt t ⟨v₀, []⟩ ops).2.vec ∧
    live = (mapRun dense dflt t (MapState.empty s) ops).2.live

/-- What a family shows: nothing, or its kind and its samples. A vector shows every live label once. -/
inductive Shows : Fam → Option (Kind × List (Labels × Metric)) → Prop where
  | metric (x : Metric) : Shows (.metric x) (some (x.kind, [([], x)]))
  | vec {S G U M : Type} {t : GroupSet S G U} {visit : G → Labels} {kind : Kind} {view : M → Metric}
      {v : MetricVec S U M} {live : G → Option M} {l : List (G × M)} :
      VecLive t v live → Enumerates l live →
      Shows (.vec t visit kind view v) (some (kind, l.map fun q => (visit q.1, view q.2)))
  | absent : Shows .absent none
  | present {f : Fam} {o : Option (Kind × List (Labels × Metric))} : Shows f o → Shows (.present f) o

/-- The calls of a family with a name and a help text. -/
def shownCalls (n : Name) (help : Option Bytes) : Option (Kind × List (Labels × Metric)) → List EncCall
  | none => match help with
    | some t => [.help n t]
    | none => []
  | some (k, ss) => FamilyIn.calls ⟨n, help, k, ss⟩

/-- The calls of an item. -/
inductive ItemCalls : Item → List EncCall → Prop where
  | field {path : List Bytes} {name : Bytes} {docs : List (List Char)} {f : Fam} {help : Option Bytes}
      {o : Option (Kind × List (Labels × Metric))} : HelpOf docs help → Shows f o →
      ItemCalls (.field path name docs f) (shownCalls (inPath path (.str name)) help o)
  | manual {path : List Bytes} {calls : List EncCall} :
      ItemCalls (.manual path calls) (calls.map (callInPath path))

/-- The vectors of a family are such as programs produce. -/
inductive FamLive : Fam → Prop where
  | metric (x : Metric) : FamLive (.metric x)
  | vec {S G U M : Type} {t : GroupSet S G U} {visit : G → Labels} {kind : Kind} {view : M → Metric}
      {v : MetricVec S U M} {live : G → Option M} : VecLive t v live → FamLive (.vec t visit kind view v)
  | absent : FamLive .absent
  | present {f : Fam} : FamLive f → FamLive (.present f)

def ItemLive : Item → Prop
  | .field _ _ _ f => FamLive f
  | .manual _ _ => True

mutual
/-- The namespaces given in `namespace` attributes. -/
def fieldNamespaces : Group → List Bytes
  | .derived fs => fieldNamespacesF fs
  | .composed a b => fieldNamespaces a ++ fieldNamespaces b
  | .namespaced _ g => fieldNamespaces g
  | .absent => []
  | .present g => fieldNamespaces g
  | .pointer g => fieldNamespaces g
  | .manual _ => []

def fieldNamespacesF : Fields → List Bytes
  | .nil => []
  | .metric _ _ _ rest => fieldNamespacesF rest
  | .flatten g rest => fieldNamespaces g ++ fieldNamespacesF rest
  | .namespaced ns g rest => ns :: fieldNamespaces g ++ fieldNamespacesF rest
end

/-- An encoder that records the calls; the `i`-th one fails if `fail i`. -/
def recorder (fail : Nat → Bool) : Encoder (List EncCall) where
  help n t := fun s => (if fail s.length then .err else .ok (), s ++ [.help n t])
  type k n := fun s => (if fail s.length then .err else .ok (), s ++ [.type k n])
  sample x ls n := fun s => (if fail s.length then .err else .ok (), s ++ [.sample x ls n])

end Measured.Spec
