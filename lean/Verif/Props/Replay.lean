import Verif.SpecReplay
import Verif.Props.Alone

/-!
# C155: sessions can be replayed
-/

namespace Lfest

open Spec Replay

theorem session_replay {c : Cfg} {user : User} : ∀ (n : Nat) (s s' : State) (seen all : List (Op × Resp)),
    session c user n s seen = .ok (s', all) →
    ∃ tr, all = seen ++ tr ∧ tr.length ≤ n ∧ history c s (tr.map Prod.fst) = .ok (s', tr)
  | 0, s, s', seen, all, h => by
    simp only [session, ok_inj, Prod.mk.injEq] at h
    obtain ⟨rfl, rfl⟩ := h
    exact ⟨[], by simp, by simp, rfl⟩
  | n + 1, s, s', seen, all, h => by
    unfold session at h
    split at h
    · simp only [ok_inj, Prod.mk.injEq] at h
      obtain ⟨rfl, rfl⟩ := h
      exact ⟨[], by simp, by simp, rfl⟩
    · next op _ =>
      rw [bind_ok] at h
      obtain ⟨⟨s1, r⟩, h1, h⟩ := h
      obtain ⟨tr, e, hl, hh⟩ := session_replay n s1 s' _ all h
      refine ⟨(op, r) :: tr, by rw [e]; simp, by simp; omega, ?_⟩
      simp only [List.map_cons, history, bind_ok, ok_inj, Prod.mk.injEq]
      exact ⟨(s1, r), h1, (s', tr), hh, rfl, rfl⟩

theorem session_panics {c : Cfg} {user : User} {e : Panic} : ∀ (n : Nat) (s : State)
    (seen : List (Op × Resp)), session c user n s seen = .error e →
    ∃ first op s1 tr, first.length < n ∧ history c s first = .ok (s1, tr) ∧
      user (seen ++ tr) = some op ∧ step c s1 op = .error e
  | 0, s, seen, h => by simp [session] at h
  | n + 1, s, seen, h => by
    unfold session at h
    split at h
    · cases h
    · next op hu =>
      cases h1 : step c s op with
      | error e' =>
        rw [h1] at h
        simp only [bind, Except.bind, Except.error.injEq] at h
        subst h
        exact ⟨[], op, s, [], by simp, rfl, by simpa using hu, h1⟩
      | ok x =>
        obtain ⟨s1, r⟩ := x
        rw [h1] at h
        obtain ⟨first, op', s2, tr, hl, hh, hu', he⟩ := session_panics n s1 (seen ++ [(op, r)]) h
        refine ⟨op :: first, op', s2, (op, r) :: tr, by simp; omega, ?_, by simpa using hu', he⟩
        simp only [history, bind_ok, ok_inj, Prod.mk.injEq]
        exact ⟨(s1, r), h1, (s2, tr), hh, rfl, rfl⟩

/-- C155: whatever decides about the calls, sending the recorded calls to a new exchange gives the recorded
answers, and the same account. So what holds after every list of calls holds for every user who reacts. -/
theorem C155_replay (c : Cfg) (user : User) (n : Nat) (s : State) (tr : List (Op × Resp))
    (h : session c user n (State.init c) [] = .ok (s, tr)) :
    tr.length ≤ n ∧ history c (State.init c) (tr.map Prod.fst) = .ok (s, tr) := by
  obtain ⟨tr', e, hl, hh⟩ := session_replay n _ s [] tr h
  rw [List.nil_append] at e
  subst e
  exact ⟨hl, hh⟩

/-- C155, panics: a session that panics does so after calls that returned, in a call that panics each time
it is made after them. -/
theorem C155_panics (c : Cfg) (user : User) (n : Nat) (e : Panic)
    (h : session c user n (State.init c) [] = .error e) :
    ∃ first op s tr, first.length < n ∧ history c (State.init c) first = .ok (s, tr) ∧
      user tr = some op ∧ step c s op = .error e := by
  simpa using session_panics n _ [] h

theorem scripted {c : Cfg} {ops : List Op} : ∀ (rest : List Op) (s : State) (seen : List (Op × Resp)),
    ops.drop seen.length = rest →
    session c (fun seen => ops[seen.length]?) rest.length s seen =
      (history c s rest).map (fun x => (x.1, seen ++ x.2))
  | [], s, seen, _ => by simp [session, history, Except.map]
  | op :: rest, s, seen, h => by
    have e : ops[seen.length]? = some op := by
      have := congrArg (fun l => l[0]?) h
      simpa using this
    have hd : ops.drop (seen.length + 1) = rest := by
      have := congrArg List.tail h
      simpa using this
    simp only [List.length_cons, session, e, history]
    cases h1 : step c s op with
    | error p => rfl
    | ok x =>
      obtain ⟨s1, r⟩ := x
      have ih := scripted (c := c) (ops := ops) rest s1 (seen ++ [(op, r)]) (by simpa using hd)
      simp only [bind, Except.bind]
      rw [ih]
      cases history c s1 rest with
      | error p => rfl
      | ok y => simp [Except.map]

/-- C155, scripts: every list of calls is the session of some user, panics included. -/
theorem C155_scripts (c : Cfg) (ops : List Op) :
    ∃ user : User, session c user ops.length (State.init c) [] = history c (State.init c) ops := by
  refine ⟨fun seen => ops[seen.length]?, ?_⟩
  rw [scripted ops (State.init c) [] rfl]
  cases history c (State.init c) ops with
  | error p => rfl
  | ok y => simp [Except.map]

namespace Ex

/-- Bids once, waits until the bid is filled, then sells. -/
def waits : User := fun seen =>
  if seen.length = 0 then some (.update (.bba ⟨d 100, d 101, 0⟩))
  else if seen.length = 1 then some (.limit .buy (d 100) (d 1) 1)
  else if seen.any (fun x => match x.1 with | .market .. => true | _ => false) then none
  else if seen.any (fun x => match x.2 with | .update (.ok (_ :: _)) => true | _ => false) then
    some (.market .sell (d 1) 2)
  else some (.update (.trade ⟨seen.length, d 101 - d (seen.length) / 2, d 1, .sell⟩))

end Ex

/-- A user who reacts: the number of updates is decided by the answers, and the session ends by itself
after five calls although ten are allowed. -/
example : (match session Ex.linR Ex.waits 10 (State.init Ex.linR) [] with
    | .ok (s, tr) => decide (tr.length = 5 ∧ s.pos = .neutral ∧ (fills s.log).length = 2)
    | .error _ => false) = true := by decide +kernel

end Lfest
