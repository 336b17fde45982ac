import Verif.Model.ExportHist
import Verif.Spec.Export
import Verif.Spec.HistVec

/-! # Specification: the example server with its histograms step by step -/

namespace Measured.Spec
open Measured.Server Measured.Conc

/-- What the middleware does: which requests begin, enter the service inside, are answered, are given up, and end. -/
def outer : List DEvent → List Event
  | [] => []
  | .top (.base (.on ..)) :: tr => outer tr
  | .top (.base e) :: tr => e :: outer tr
  | _ :: tr => outer tr

/-- The step of the server with single-step histograms that a step stands for, if any. A duration is recorded when it is added
to the sum of its histogram. -/
inductive DShows : DEvent → List EEvent → Prop where
  | top (e : EEvent) : DShows (.top e) [e]
  | ended (t : Tid) (acc acc' : List (Key × List HistCall)) (h : acc'.map Prod.fst = acc.map Prod.fst) :
    DShows (.top (.base (.on .duration (.vec (.endPass t acc))))) [.base (.on .duration (.vec (.endPass t acc')))]
  | shown (t : Tid) (k : Key) (g : requestsDef.Group) (us : List HistCall) :
    DShows (.top (.base (.on .duration (.shown t k g [])))) [.base (.on .duration (.shown t k g us))]
  | recorded (t : Tid) (k : Key) (x : F64) (d : Nat) (h : d / 10 ^ 9 < 2 ^ 64) (hx : x = asSecsF64 d) :
    DShows (.hist t k (.summed t x)) [.base (.on .duration (.vec (.update t k (.observeDuration d))))]
  | inside (t : Tid) (k : Key) (e : HistEvent) (h : ∀ u x, e ≠ .summed u x) : DShows (.hist t k e) []

end Measured.Spec
