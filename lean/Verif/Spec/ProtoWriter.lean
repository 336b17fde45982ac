import Verif.Spec.ProtoCalls
import Verif.Model.Writer

/-! The protobuf encoder in use by a server whose writer may fail. -/

namespace Measured.Spec

/-- A scrape: the calls of a collection, then a flush. -/
def scrapeOn {W : Type} [Write W] (m : Mode) (ryu : F64 → Bytes) (cs : List EncCall) : RS (Proto.ProtoEnc W) Unit := do
  (Proto.protoEncoder m ryu).runAll cs
  Proto.flush m

/-- Scrapes until one of them fails. -/
def scrapesOn {W : Type} [Write W] (m : Mode) (ryu : F64 → Bytes) : List (List EncCall) → RS (Proto.ProtoEnc W) Unit
  | [] => fun e => (.ok (), e)
  | cs :: css => do
    scrapeOn m ryu cs
    scrapesOn m ryu css

/-- Scrapes by an encoder that is kept whatever becomes of a scrape; with the result of each. -/
def attempts {W : Type} [Write W] (m : Mode) (ryu : F64 → Bytes) : List (List EncCall) → Proto.ProtoEnc W →
    List (Out Unit) × Proto.ProtoEnc W
  | [], e => ([], e)
  | cs :: css, e =>
    let r := scrapeOn m ryu cs e
    let q := attempts m ryu css r.2
    (r.1 :: q.1, q.2)

/-- A message that shows the block `b` under the block `b₁` that followed it. -/
structure MixedReads (rf : Bytes → Option F64) (text : Name → Bytes) (b b₁ : Block) (g : PFamily) : Prop where
  name : g.name = (headName b₁.heads).map text
  help : g.help = ((lastHelp b₁.heads).or (lastHelp b.heads)).map Prod.snd
  type : g.type = ((lastType b₁.heads).or (lastType b.heads)).map fun t => kindCode t.1
  metrics : List.Forall₂ (ProtoSampleReads rf) (b.samples.map Prod.fst ++ b₁.samples.map Prod.fst) g.metrics

/-- A message that shows several blocks under the name of the last of them. -/
structure MergedReads (rf : Bytes → Option F64) (text : Name → Bytes) (bs : List Block) (g : PFamily) : Prop where
  name : g.name = (bs.getLast?.bind fun b => headName b.heads).map text
  help : g.help = (lastHelp (bs.flatMap Block.heads)).map Prod.snd
  type : g.type = (lastType (bs.flatMap Block.heads)).map fun t => kindCode t.1
  metrics : List.Forall₂ (ProtoSampleReads rf) (bs.flatMap fun b => b.samples.map Prod.fst) g.metrics

/-- The messages of some blocks by an encoder that still has the blocks `lost` in its buffer: those join the first one. -/
def messagesOf (lost : List Block) : List Block → List (List Block)
  | [] => []
  | b :: bs => (lost ++ [b]) :: bs.map fun b => [b]

/-- What a writer gets in scrapes that are answered with Ok or with an error, given the calls made since the last error, and
the blocks that were in the buffer then. A scrape that fails is cut off before a help or a type, or at its end; the last
message so far was then written in part only, and its blocks are still there after the error. -/
inductive Gets (rf : Bytes → Option F64) (text : Name → Bytes) : List EncCall → List Block → List (List EncCall) →
    List (Out Unit) → Bytes → Prop
  | done {calls : List EncCall} {lost bs : List Block} {tail : List EncCall} {out : Bytes} {gs : List PFamily} :
      calls = bs.flatMap Block.calls ++ tail → (∀ b ∈ bs, b.Wf) → (∀ c ∈ tail, IsHead c) → decodeScrape out = some gs →
      List.Forall₂ (MergedReads rf text) (messagesOf lost bs) gs → Gets rf text calls lost [] [] out
  | ok {calls cs : List EncCall} {lost : List Block} {css : List (List EncCall)} {os : List (Out Unit)} {out : Bytes} :
      Gets rf text (calls ++ cs) lost css os out → Gets rf text calls lost (cs :: css) (.ok () :: os) out
  | err {calls cs rest : List EncCall} {lost bs : List Block} {before : List (List Block)} {last : List Block}
      {css : List (List EncCall)} {os : List (Out Unit)} {out full p out' : Bytes} {gs : List PFamily} {g : PFamily} :
      (∀ c ∈ rest.head?, IsHead c) → calls ++ cs = bs.flatMap Block.calls → (∀ b ∈ bs, b.Wf) →
      messagesOf lost bs = before ++ [last] → decodeScrape out = some gs → List.Forall₂ (MergedReads rf text) before gs →
      decodeScrape full = some [g] → MergedReads rf text last g → p <+: full → Gets rf text [] last css os out' →
      Gets rf text calls lost ((cs ++ rest) :: css) (.err :: os) (out ++ p ++ out')

end Measured.Spec
