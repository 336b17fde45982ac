import Verif.Model.Flush

/-! Scrapes over writers with a buffer of their own. -/

namespace Measured.Spec

/-- A text scrape: the calls of a collection, then a flush. -/
def textScrape {W : Type} [FlushWrite W] (m : Mode) (ryu : F64 → Bytes) (cs : List EncCall) : RS (TextEnc W) Unit := do
  (textEncoder m ryu).runAll cs
  textFlushAll

/-- A protobuf scrape. -/
def protoScrape {W : Type} [FlushWrite W] (m : Mode) (ryu : F64 → Bytes) (cs : List EncCall) : RS (Proto.ProtoEnc W) Unit := do
  (Proto.protoEncoder m ryu).runAll cs
  Proto.flushAll m

end Measured.Spec
