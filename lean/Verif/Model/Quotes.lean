import Verif.Model.Reports
import Verif.Model.Writer
import Verif.Model.WebAmount
/-
Model of `coin commodities -q` (cmd/coin/commodities.go:69-98) and of `NewAmountFloat` (commodity.go:226-232). The service that is asked
for quotes (the library finance-go) is a parameter; a float64 is a fraction, its operations are rounded by `fl`.
-/
namespace Verif

/-- What the service answers: an error, a nil pointer without an error, or the currency and the price of a quote. -/
inductive Reply
  | failed (msg : Str)
  | nothing
  | quote (currency : Str) (price : Int × Nat)

/-- The service: `quote.Get`, `forex.Get`, and what the machine makes of the conversion of a float64 that does not fit an int64. -/
structure QuoteService where
  ticker : Str → Reply
  forex : Str → Reply
  overflow : Int

/-- `NewAmountFloat` (commodity.go:226-232): the product of two float64 values, cut to an int64. -/
def newAmountFloat (overflow : Int) (x : Int × Nat) (c : Com) : Except Fault Amount :=
  (pow10 c.decimals).bind fun p =>
  let y := fl (x.1 * (fl p 1).1) (x.2 * (fl p 1).2)
  let v := Int.tdiv y.1 (y.2 : Int)
  .ok ⟨if -(2 ^ 63) ≤ v ∧ v < 2 ^ 63 then v else overflow, c⟩

/-- The answer for a commodity (cmd/coin/commodities.go:74-82). -/
def QuoteService.ask (Q : QuoteService) (dflt : Str) (c : PCom) : Reply :=
  if c.symbol ≠ [] then Q.ticker c.symbol else Q.forex (c.id ++ dflt ++ str "=X")

/-- The body of the loop (cmd/coin/commodities.go:71-96): the lines printed and the lines for the standard error. A nil pointer is
dereferenced (line 79 or 88). `now` is the day. -/
def quoteOne (Q : QuoteService) (now : Int) (st : LoadState) (c : PCom) : Except Fault (List Str × List Str) :=
  if c.noMarket = true ∨ c.id = st.dflt then .ok ([], [])
  else match Q.ask st.dflt c with
    | .failed m => .ok ([], [c.id ++ str ": " ++ m])
    | .nothing => .error .panic
    | .quote cur x =>
      match st.lookup cur with
      | none => .ok ([], [c.id ++ str ": no commodity for " ++ cur])
      | some k =>
        (newAmountFloat Q.overflow x k).bind fun a => (amountText none a).bind fun s =>
        .ok ([str "P " ++ formatDate now ++ str " " ++ c.id ++ str " " ++ s], [])

/-- The loop (cmd/coin/commodities.go:70-97); of a run that panics the lines printed before are not kept. -/
def quotesOut (Q : QuoteService) (now : Int) (st : LoadState) : Except Fault (List Str × List Str) :=
  ((inOrder (·.id) st.comEntries).mapM (quoteOne Q now st)).bind fun rs => .ok ((rs.map (·.1)).flatten, (rs.map (·.2)).flatten)

/-- `coin commodities -q` (cmd/coin/commodities.go:52-98): the standard output and the standard error. The command without `-q` is
`commoditiesMain`. -/
def quotesMain (fe : FlagEnv) (Q : QuoteService) (now : Int) (st : LoadState) (argv : List Str) : Except Fault (Str × Str) :=
  (dispatch fe argv).bind fun r =>
  match r.1, r.2.2 with
  | .commodities, [] =>
    if boolFlag r.2.1 (str "q") then (quotesOut Q now st).bind fun o => .ok (textOf o.1, textOf o.2) else .error .err
  | _, _ => .error .err

end Verif
