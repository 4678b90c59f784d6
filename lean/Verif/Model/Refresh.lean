/-! # Model of concurrent refreshes of tensors (cpp/lib_moment/probability/maintains_tensors.cpp)

Any number of threads call `RefreshCollinsGisin`, `RefreshProbabilityTensor` or `RefreshFullCorrelator` of one system, which is guarded by a
`std::shared_mutex`. A section between taking and releasing the write lock is one step, which needs that nobody has the read lock; a section under the read
lock is one step too, since nothing that it reads can change meanwhile. Which symbols exist is reduced to whether all words of the Collins-Gisin tensor have
symbols. Tensors store their elements (at most 1024), and correlators exist for the scenario. -/

namespace Moment.Refresh

/-- Which of the functions is called. -/
inductive Kind
  | gisin
  | prob
  | corr
  deriving DecidableEq, Repr

/-- Where a thread is. `checkG`, `checkP` and `done` have the read lock; `makeG`, `fillG`, `makeP`, `fillP` wait for the write lock; `start`, `backG` and `backP`
wait for the read lock. -/
inductive Pc
  | start
  | checkG
  | makeG
  | fillG
  | backG
  | checkP
  | makeP
  | fillP
  | backP
  | done
  | finished
  deriving DecidableEq, Repr

/-- Whether the read lock is held. -/
def Pc.reads : Pc → Bool
  | .checkG | .checkP | .done => true
  | _ => false

/-- A thread, and the value that its function returns, once it is known. -/
structure Thread where
  kind : Kind
  pc : Pc
  res : Option Bool
  deriving DecidableEq, Repr

/-- A Collins-Gisin tensor: its address, and whether `missing_symbols` is empty. -/
structure Gisin where
  addr : Nat
  complete : Bool
  deriving DecidableEq, Repr

/-- A tensor of polynomials: the address of the Collins-Gisin tensor that it refers to (polynomial_tensor.h:45), and `hasAllSymbols`. -/
structure Poly where
  ref : Nat
  complete : Bool
  deriving DecidableEq, Repr

/-- The system: whether all words have symbols; the tensors; and an address that has not been used. -/
structure State where
  full : Bool
  gisin : Option Gisin
  prob : Option Poly
  corr : Option Poly
  fresh : Nat
  threads : List Thread
  deriving DecidableEq, Repr

def State.poly (σ : State) : Kind → Option Poly
  | .corr => σ.corr
  | _ => σ.prob

def State.setPoly (σ : State) (k : Kind) (p : Poly) : State :=
  match k with
  | .corr => { σ with corr := some p }
  | _ => { σ with prob := some p }

def State.readers (σ : State) : Bool := σ.threads.any fun th => th.pc.reads

/-- Thread `i` goes on. -/
def State.go (σ : State) (i : Nat) (th : Thread) : State := { σ with threads := σ.threads.set i th }

/-- The Collins-Gisin tensor at an address, if it is there: a tensor that was replaced has been destroyed. -/
def State.at (σ : State) (a : Nat) : Option Gisin := σ.gisin.filter fun g => g.addr = a

/-- One step of thread `i`. `none`: it has to wait, or has finished. `some none`: undefined behaviour. With `recheck`, `RefreshCollinsGisin` looks again
whether there is a tensor after it got the write lock, as the other functions do; the source does not. -/
def step (recheck : Bool) (σ : State) (i : Nat) : Option (Option State) :=
  (σ.threads[i]?).bind fun th =>
    match th.pc with
    -- `get_read_lock` (maintains_tensors.cpp:72, 123, 166)
    | .start => some (some (σ.go i { th with pc := .checkG }))
    -- 41-42, 54-59
    | .checkG => match σ.gisin with
      | none => some (some (σ.go i { th with pc := .makeG }))
      | some g =>
        if g.complete then
          match th.kind with
          | .gisin => some (some (σ.go i { th with pc := .done, res := some true }))
          | _ => some (some (σ.go i { th with pc := .checkP }))
        else some (some (σ.go i { th with pc := .fillG }))
    -- 44-47: a tensor is made, and the one before is destroyed
    | .makeG =>
      if σ.readers then none
      else match recheck, σ.gisin with
        | true, some g => some (some (σ.go i { th with pc := .backG, res := some g.complete }))
        | _, _ => some (some ({ σ with gisin := some ⟨σ.fresh, σ.full⟩, fresh := σ.fresh + 1 }.go i { th with pc := .backG, res := some σ.full }))
    -- 60-66
    | .fillG =>
      if σ.readers then none
      else match σ.gisin with
        | none => some none
        | some g =>
          let c := g.complete || σ.full
          some (some ({ σ with gisin := some ⟨g.addr, c⟩ }.go i { th with pc := .backG, res := some c }))
    -- 49-50, 67-68; 79 and 129 ignore the result
    | .backG => match th.kind with
      | .gisin => some (some (σ.go i { th with pc := .done }))
      | _ => some (some (σ.go i { th with pc := .checkP }))
    -- 82-89, 104-109; 132-134, 148-153
    | .checkP => match σ.poly th.kind with
      | none => some (some (σ.go i { th with pc := .makeP }))
      | some p =>
        if p.complete then some (some (σ.go i { th with pc := .done, res := some true }))
        else some (some (σ.go i { th with pc := .fillP }))
    -- 90-97; 135-141: looks again whether there is a tensor. `CollinsGisin()` throws if there is none, which is not undefined, but cannot happen either
    | .makeP =>
      if σ.readers then none
      else match σ.poly th.kind with
        | some p => some (some (σ.go i { th with pc := .backP, res := some p.complete }))
        | none => match σ.gisin with
          | none => some none
          | some g => some (some ((σ.setPoly th.kind ⟨g.addr, g.complete⟩).go i { th with pc := .backP, res := some g.complete }))
    -- 110-116; 154-160: follows the reference to the Collins-Gisin tensor
    | .fillP =>
      if σ.readers then none
      else match σ.poly th.kind with
        | none => some none
        | some p =>
          if p.complete then some (some (σ.go i { th with pc := .backP, res := some true }))
          else match σ.at p.ref with
            | none => some none
            | some g => some (some ((σ.setPoly th.kind ⟨p.ref, g.complete⟩).go i { th with pc := .backP, res := some g.complete }))
    -- 99-100, 117-118; 143-144, 161-162
    | .backP => some (some (σ.go i { th with pc := .done }))
    | .done => some (some (σ.go i { th with pc := .finished }))
    | .finished => none

/-- What can happen, with the number of steps of threads: a step of a thread that does not have to wait, or other operations of the system (which have the
write lock) add the missing symbols. -/
inductive Steps (recheck : Bool) : State → Nat → State → Prop
  | refl (σ : State) : Steps recheck σ 0 σ
  | thread {σ σ' σ'' : State} {n : Nat} (i : Nat) : Steps recheck σ n σ' → step recheck σ' i = some (some σ'') → Steps recheck σ (n + 1) σ''
  | symbols {σ σ' : State} {n : Nat} : Steps recheck σ n σ' → σ'.readers = false → Steps recheck σ n { σ' with full := true }

end Moment.Refresh
