import Verif.Go.Basic
/-
Model of the posting lists kept by accounts (account.go) and of posting moves (posting.go).

A posting is identified by a reference (`PRef`, the pointer). `date p` is `p.Transaction.Posted` as a day number; it never
changes after the transaction is created. An account's `Postings` slice is a `List PRef`.
-/
namespace Verif

/-- Pointer identity of a `*Posting`. -/
abbrev PRef := Nat

/-- `Time.Compare` of two dates. -/
def timeCompare (x y : Int) : Int := if x < y then -1 else if x = y then 0 else 1

/-- The `for` loop of `findPosting` (account.go:254-263) starting at index `i`; the list is `a.Postings[i:]`. -/
def scanFrom (date : PRef → Int) (p : PRef) : Nat → List PRef → Nat × Bool
  | i, [] => (i, false)
  | i, q :: qs =>
    if date q = date p then (if q = p then (i, true) else scanFrom date p (i + 1) qs)
    else (i, false)

/-- `(*Account).findPosting` (account.go:247-266); `l` is `a.Postings`. -/
def findPosting (date : PRef → Int) (l : List PRef) (p : PRef) : Nat × Bool :=
  let (i, found) := find l.length (fun i => timeCompare (date p) (date (l.getD i 0)))
  if !found then (i, false) else scanFrom date p i (l.drop i)

/-- `(*Account).deletePosting` (account.go:268-276): `copy(a.Postings[i:], a.Postings[i+1:])` and shorten by one. -/
def deletePosting (date : PRef → Int) (l : List PRef) (p : PRef) : List PRef :=
  let (i, found) := findPosting date l p
  if found then l.take i ++ l.drop (i + 1) else l

/-- `(*Account).addPosting` (account.go:278-295). Both branches (enough capacity or a new array) leave the slice with
`p` inserted at index `i`. -/
def addPosting (date : PRef → Int) (l : List PRef) (p : PRef) : List PRef :=
  let (i, found) := findPosting date l p
  if found then l else l.take i ++ p :: l.drop i

/-- `a.Postings` of every account (keyed by full name) and `p.Account` of every posting. -/
structure Books where
  postings : Str → List PRef
  account : PRef → Option Str

/-- Replacing the posting list of one account. -/
def Books.setPostings (b : Books) (a : Str) (l : List PRef) : Books :=
  { b with postings := fun x => if x = a then l else b.postings x }

/-- Assigning `p.Account = a`. -/
def Books.setAccount (b : Books) (p : PRef) (a : Str) : Books :=
  { b with account := fun q => if q = p then some a else b.account q }

/-- `s.Account = a; s.Account.addPosting(s)` (coin.go:241-242, and transaction.go:227-230 for new postings). -/
def Books.post (date : PRef → Int) (b : Books) (p : PRef) (a : Str) : Books :=
  (b.setAccount p a).setPostings a (addPosting date (b.postings a) p)

/-- `(*Posting).MoveTo` (posting.go:62-69); a nil `p.Account` panics inside `deletePosting`. -/
def Books.moveTo (date : PRef → Int) (b : Books) (p : PRef) (a : Str) : Except Fault Books :=
  match b.account p with
  | none => .error .panic
  | some a0 =>
    if a0 = a then .ok b
    else
      let b1 := b.setPostings a0 (deletePosting date (b.postings a0) p)
      let b2 := b1.setPostings a (addPosting date (b1.postings a) p)
      .ok (b2.setAccount p a)

/-- `(*Posting).drop` (posting.go:71-73). The posting keeps its `Account` pointer. -/
def Books.dropPosting (date : PRef → Int) (b : Books) (p : PRef) : Except Fault Books :=
  match b.account p with
  | none => .error .panic
  | some a0 => .ok (b.setPostings a0 (deletePosting date (b.postings a0) p))

/-- `(*Transaction).drop` (transaction.go:283-288) and `DropTransactions` (transaction.go:33-38): every posting dropped. -/
def Books.dropAll (date : PRef → Int) : Books → List PRef → Except Fault Books
  | b, [] => .ok b
  | b, p :: ps => (b.dropPosting date p).bind fun b' => b'.dropAll date ps

/-- No postings anywhere. -/
def Books.empty : Books := ⟨fun _ => [], fun _ => none⟩

/-- The operations on account posting lists available to the rest of the program. -/
inductive BookOp
  | post (p : PRef) (a : Str)
  | move (p : PRef) (a : Str)
  | drop (p : PRef)

/-- One operation. -/
def Books.step (date : PRef → Int) (b : Books) : BookOp → Except Fault Books
  | .post p a => .ok (b.post date p a)
  | .move p a => b.moveTo date p a
  | .drop p => b.dropPosting date p

/-- A sequence of operations. -/
def Books.run (date : PRef → Int) : Books → List BookOp → Except Fault Books
  | b, [] => .ok b
  | b, o :: os => (b.step date o).bind fun b' => b'.run date os

end Verif
