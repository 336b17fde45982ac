import Verif.Model.BufferedText
import Verif.Spec.TextFail

/-! What a user of a `BufferedTextEncoder` sees. -/

namespace Measured.Spec

/-- What a user does with the encoder. -/
inductive BufOp where
  | call (c : EncCall)
  | finish

/-- What the user gets. -/
inductive BufRes where
  | called (o : Out Unit)
  | finished (o : Out Bytes)
  deriving DecidableEq

/-- A session. It goes on after a panic, as under `catch_unwind`. -/
def bufSession (m : Mode) (ryu : F64 → Bytes) : List BufOp → BufText Bytes → List BufRes
  | [], _ => []
  | .call c :: ops, b =>
    .called ((bufferedEncoder m ryu).run c b).1 :: bufSession m ryu ops ((bufferedEncoder m ryu).run c b).2
  | .finish :: ops, b => .finished (BufText.finish b).1 :: bufSession m ryu ops (BufText.finish b).2

/-- The text that a new `TextEncoder` over a `Vec` writes for the calls, each made whatever the ones before it returned. -/
def plainText (m : Mode) (ryu : F64 → Bytes) (cs : List EncCall) : Bytes :=
  (cs.foldl (fun e c => ((textEncoder m ryu).run c e).2) (TextEnc.new ([] : Bytes))).writer

/-- What a session has to return if the calls `cs` were made since the last `finish`. -/
inductive BufReturns (m : Mode) (ryu : F64 → Bytes) : List EncCall → List BufOp → List BufRes → Prop
  | nil (cs) : BufReturns m ryu cs [] []
  | ok {cs c ops rs} : ¬ (m = .debug ∧ Overflows c) → BufReturns m ryu (cs ++ [c]) ops rs →
      BufReturns m ryu cs (.call c :: ops) (.called (.ok ()) :: rs)
  | overflow {cs c ops rs} : m = .debug → Overflows c → BufReturns m ryu (cs ++ [c]) ops rs →
      BufReturns m ryu cs (.call c :: ops) (.called .panic :: rs)
  | finish {cs ops rs} : BufReturns m ryu [] ops rs →
      BufReturns m ryu cs (.finish :: ops) (.finished (.ok (plainText m ryu cs)) :: rs)

end Measured.Spec
