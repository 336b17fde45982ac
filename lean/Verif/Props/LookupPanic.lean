import Verif.Props.LabelGroup
import Verif.Props.MetricVec

/-! # Lookups in a vector whose label set has too many combinations (C05) -/

namespace Measured
open Measured.Spec

variable {S V M : Type}

/-- Encoding a group of a derived set panics before it touches an interner. -/
theorem derivedEncode_panic {m : Mode} {D : DynSet S V} {d : GroupDef V} {g : d.Group} {h : Heap S}
    (hp : ((derived m D d).encode g h).1 = .panic) : (derived m D d).encode g h = (.panic, h) := by
  simp only [derived, derivedEncode] at hp ⊢
  rcases he : encodeFixed m g d.fixed 1 0 with (_ | index) | _ | _
  · simp [he] at hp
  · rcases hd : encodeDyn D g d.dynamics h with ⟨_ | ks, h'⟩ <;> simp [he, hd] at hp
  · simp [he] at hp
  · rfl

/-- C05. What an overflow-checked build does instead of giving two groups one id: the lookup panics, the user of the
vector sees that, and neither the metrics nor the interners nor the ids handed out have changed. (`C05_ids_collide_refuted`
has a set and a group of this kind.) -/
theorem C05_lookup_panics (m : Mode) (D : DynSet S V) (d : GroupDef V) (hasher : Nat × List Nat → Nat) (dflt : M)
    (r : VecRun (Heap S) (Nat × List Nat) M) (g : d.Group) (hp : ((derived m D d).encode g r.vec.labels).1 = .panic) :
    MetricVec.tryWithLabels m hasher (derived m D d) g r.vec = (.panic, r.vec) ∧
    MetricVec.withLabels m hasher (derived m D d) g r.vec = (.panic, r.vec) ∧
    vecStep m hasher dflt (derived m D d) r (.lookup g) = (.panic, r) ∧
    (∀ f, vecStep m hasher dflt (derived m D d) r (.update g f) = (.panic, r)) ∧
    ∀ f, vecStep m hasher dflt (derived m D d) r (.updateMut g f) = (.panic, r) := by
  have h1 : MetricVec.tryWithLabels m hasher (derived m D d) g r.vec = (.panic, r.vec) := by
    unfold MetricVec.tryWithLabels
    rw [derivedEncode_panic hp]
  have h2 : MetricVec.withLabels m hasher (derived m D d) g r.vec = (.panic, r.vec) := by
    unfold MetricVec.withLabels
    rw [h1]
  refine ⟨h1, h2, ?_, fun f => ?_, fun f => ?_⟩
  · simp only [vecStep, h1]
  · simp only [vecStep, RS.bind_run, h2, VecRes.ofState]
  · simp only [vecStep, RS.bind_run, h2, VecRes.ofState]

/-- C05. A lookup in a sparse vector returns an id exactly if encoding the group does, and is refused exactly if it is. -/
theorem C05_lookup_follows {G U : Type} (m : Mode) (t : GroupSet S G U) (hasher : U → Nat) (v : MetricVec S U M)
    (sm : ShardedMap U M) (hs : v.inner = .sparse sm) (g : G) :
    ((MetricVec.tryWithLabels m hasher t g v).1 = .panic ↔ (t.encode g v.labels).1 = .panic) ∧
    ((MetricVec.tryWithLabels m hasher t g v).1 = .ok none ↔ (t.encode g v.labels).1 = .ok none) ∧
    (∀ u, (∃ n, (MetricVec.tryWithLabels m hasher t g v).1 = .ok (some ⟨u, n⟩)) ↔ (t.encode g v.labels).1 = .ok (some u)) ∧
    ((MetricVec.withLabels m hasher t g v).1 = .panic ↔
      (t.encode g v.labels).1 = .panic ∨ (t.encode g v.labels).1 = .ok none) ∧
    (MetricVec.tryWithLabels m hasher t g v).2.inner = v.inner := by
  unfold MetricVec.withLabels MetricVec.tryWithLabels
  rcases he : t.encode g v.labels with ⟨o, s⟩
  rcases o with (_ | u) | _ | _
  · simp [expect]
  · simp [hs, expect, Bind.bind, Out.bind]
  · simp
  · simp

/-- A vector with a set of `2^64` combinations in a build with overflow checks: looking a group up panics. -/
example (v : MetricVec (Heap (Rodeo Nat)) (Nat × List Nat) Nat) (hv : v.labels = fun _ => ⟨[], 10⟩) :
    vecStep .debug (fun _ => 0) 0 (derived .debug threadedRodeo hugeDef) ⟨v, []⟩ (.lookup ![0, 0, 7]) = (.panic, ⟨v, []⟩) :=
  (C05_lookup_panics .debug threadedRodeo hugeDef (fun _ => 0) 0 ⟨v, []⟩ ![0, 0, 7] (by simp only [hv]; rfl)).2.2.1

end Measured
