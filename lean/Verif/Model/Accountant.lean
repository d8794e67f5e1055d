import Verif.Model.Builder

/-!
# Model of `privacy_accountant.py`

An accountant is an object state `σ` with a method `_maybe_compose`.  A method that mutates `self` and may raise is a
function `σ → σ × Except Err α`: the state reached is visible also when an exception is raised.
-/

namespace Verif

/-- `NeighboringRelation`, `privacy_accountant.py:26-32`. -/
inductive NeighborRel where
  | addOrRemoveOne
  | replaceOne
  | replaceSpecial
  deriving DecidableEq, Repr

/-- `CompositionErrorDetails`, `privacy_accountant.py:71-75` (the message is dropped). -/
structure CompositionError where
  invalidEvent : DpEvent

/-- The part of a `PrivacyAccountant` subclass that `privacy_accountant.py` relies on: `_maybe_compose`
(`privacy_accountant.py:77-99`), arguments `event`, `count`, `do_compose`. -/
structure Accountant (σ : Type) where
  maybeCompose : DpEvent → ℤ → Bool → σ → σ × Except Err (Option CompositionError)

/-- State of a `PrivacyAccountant` object: subclass state and `_ledger` (`privacy_accountant.py:42-44`). -/
structure AcctState (σ : Type) where
  acct : σ
  ledger : Builder

namespace Accountant
variable {σ : Type} (A : Accountant σ)

/-- `PrivacyAccountant.supports`, `privacy_accountant.py:56-69`. -/
def supports (s : AcctState σ) (e : DpEvent) : AcctState σ × Except Err Bool :=
  match A.maybeCompose e 0 false s.acct with
  | (a, .error err) => ({ s with acct := a }, .error err)
  | (a, .ok r) => ({ s with acct := a }, .ok r.isNone)

/-- The count handed to the dry run; for a non-int python object the dry run gets some value, the accountants never
look at it (`Spec.DryRun`). `privacy_accountant.py:122`. -/
def dryCount : CountArg → ℤ
  | .int n => n
  | .notAnInt => 0

/-- `PrivacyAccountant.compose`, `privacy_accountant.py:101-130`: type check, dry run, ledger update, real run.  The real run
happens only after `self._ledger.compose(event, count)` accepted the count, so the count is an int there. -/
noncomputable def compose (s : AcctState σ) (event : EventArg) (count : CountArg) :
    AcctState σ × Except Err Unit :=
  match event with
  | .notAnEvent => (s, .error .typeError)
  | .event e =>
    match A.maybeCompose e (dryCount count) false s.acct with
    | (a, .error err) => ({ s with acct := a }, .error err)
    | (a, .ok (some _)) => ({ s with acct := a }, .error .unsupportedEventError)
    | (a, .ok none) =>
      match s.ledger.compose (.event e) count with
      | (b, .error err) => (⟨a, b⟩, .error err)
      | (b, .ok ()) =>
        match A.maybeCompose e (dryCount count) true a with
        | (a', .error err) => (⟨a', b⟩, .error err)
        | (a', .ok _) => (⟨a', b⟩, .ok ())

/-- `PrivacyAccountant.ledger`, `privacy_accountant.py:132-135`. -/
def ledger (s : AcctState σ) : AcctState σ × DpEvent :=
  ({ s with ledger := s.ledger.build.1 }, s.ledger.build.2)

/-- A call on an accountant object. `privacy_accountant.py:56-69`, `privacy_accountant.py:101-130`. -/
inductive Call where
  | compose (event : EventArg) (count : CountArg)
  | supports (event : DpEvent)
  | ledger

/-- State after a call. `privacy_accountant.py:56-69`, `privacy_accountant.py:101-130`. -/
noncomputable def step (s : AcctState σ) : Call → AcctState σ
  | .compose e n => (A.compose s e n).1
  | .supports e => (A.supports s e).1
  | .ledger => (ledger s).1

/-- State after a history of calls on a fresh object with subclass state `a₀`. `privacy_accountant.py:56-69`, `privacy_accountant.py:101-130`. -/
noncomputable def run (a₀ : σ) (cs : List Call) : AcctState σ :=
  cs.foldl A.step ⟨a₀, Builder.init⟩

end Accountant
end Verif
