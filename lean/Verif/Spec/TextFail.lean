import Verif.Model.Text

/-! The text encoder in use by a server whose writer may fail. -/

namespace Measured.Spec

/-- The count of a histogram does not fit into 64 bits. -/
def Overflows : EncCall → Prop
  | .sample (.histogram le h) _ _ => 2 ^ 64 ≤ (h.buckets.take le.length).sum + h.inf
  | _ => False

/-- Scrapes by one encoder, each followed by a flush whatever became of it; with the result of each. -/
def textAttempts {W : Type} [Write W] (m : Mode) (ryu : F64 → Bytes) : List (List EncCall) → TextEnc W →
    List (Out Unit) × W
  | [], e => ([], e.writer)
  | cs :: css, e =>
    let r := (textEncoder m ryu).runAll cs e
    let q := textAttempts m ryu css (textFlush r.2).2
    (r.1 :: q.1, q.2)

/-- Scrapes by a new encoder each, over the same writer. -/
def freshAttempts {W : Type} [Write W] (m : Mode) (ryu : F64 → Bytes) : List (List EncCall) → W → List (Out Unit) × W
  | [], w => ([], w)
  | cs :: css, w =>
    let r := (textEncoder m ryu).runAll cs (TextEnc.new w)
    let q := freshAttempts m ryu css r.2.writer
    (r.1 :: q.1, q.2)

end Measured.Spec
