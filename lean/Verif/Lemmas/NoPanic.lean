import Verif.Lemmas.Reference

/-! Calls that cannot panic. -/

namespace Lfest

open Spec

theorem orderMarginWithOrder_eq (e : Env) (imr : Int) (b : Book) (pos : Position) (o : Limit) :
    orderMarginWithOrder e imr b pos o = orderMargin e imr (b ++ [o]) pos := by
  simp only [orderMarginWithOrder, orderMargin, orderMarginInternal, sideOrders_new]

theorem checkLimit_total {c : Cfg} {pos : Position} {o : Limit} {wallet : Int} {om : Book}
    (hw : PosWF pos) (hg : GoodOrders (om ++ [o]))
    (hdb : c.env.debug = true → c.spec.initMarginReq ≤ c.scale) :
    ∃ r, checkLimitOrder c pos o wallet om = .ok r := by
  have hg' : GoodOrders om := fun x hx => hg x (by simp [hx])
  simp only [checkLimitOrder, orderMarginWithOrder_eq, orderMargin_total c hw hg' hdb,
    orderMargin_total c hw hg hdb, bind, Except.bind]
  split <;> exact ⟨_, rfl⟩

/-- A limit order submitted while the order margin is in line. -/
theorem submitLimit_total {c : Cfg} {s : State} {o : NewLimit} (hi : Inv c s)
    (hl : LInv c s.core) (hcap : c.maxOpen ≤ 10000) (h0 : 0 ≤ c.spec.initMarginReq)
    (hdb : c.env.debug = true → c.spec.initMarginReq ≤ c.scale)
    (htq : c.spec.quantityFilter.tickSize ≠ 0) (htp : c.spec.priceFilter.tickSize ≠ 0)
    (hp : 0 < o.price) (hq : 0 < o.qty) (hline : inLine c s) :
    ∃ s' r, submitLimit c s o = .ok (s', r) := by
  have hw : PosWF s.pos := hl.wf
  have hsums : s.acct.debitSum = s.acct.creditSum := hl.sums
  have hs := hi.sync hcap
  let p := o.intoPending s.nextId s.ms.ts
  have hg : GoodOrders (s.active ++ [p]) := by
    intro x hx
    simp only [List.mem_append, List.mem_singleton] at hx
    rcases hx with hx | rfl
    · exact ⟨(hi.orders x hx).price, Int.le_of_lt (hi.orders x hx).rem⟩
    · exact ⟨hp, Int.le_of_lt hq⟩
  have hfresh : ∀ x ∈ s.active, x.id ≠ p.id := by
    intro x hx
    have := (hi.orders x hx).fresh
    simp only [p, NewLimit.intoPending]; omega
  obtain ⟨r1, h1⟩ := quantity_total (q := o.qty) htq
  obtain ⟨r2, h2⟩ := price_total (s := c.scale) (p := o.price) (m := s.ms.mid c.scale) htp
  obtain ⟨r3, h3⟩ := checkLimit_total (c := c) (wallet := s.acct.balance .wallet) hw hg hdb
  simp only [submitLimit, h1, bind, Except.bind]
  cases r1 with
  | error err => exact ⟨_, _, rfl⟩
  | ok u1 =>
    simp only [h2]
    cases r2 with
    | error err => exact ⟨_, _, rfl⟩
    | ok u2 =>
      simp only [hs]
      have h3' : checkLimitOrder c s.pos (o.intoPending s.nextId s.ms.ts)
        (s.acct.balance .wallet) s.active = .ok r3 := h3
      simp only [h3']
      cases r3 with
      | error err => exact ⟨_, _, rfl⟩
      | ok u3 =>
        simp only
        split
        · exact ⟨_, _, rfl⟩
        · have hle := marginReq_append (c := c) (pos := s.pos.quantity) hg h0
          have hfunds : marginReq c (s.active ++ [p]) s.pos.quantity ≤
              s.acct.balance .wallet + marginReq c s.active s.pos.quantity := by
            rcases checkLimit_ok hw (fun x hx => (hg x hx).2) h3 with ⟨_, h⟩ | ⟨h, _⟩
            · exact h
            · simp at h
          unfold inLine at hline
          have key : ∀ s2 : State, s2.active = s.active → s2.om = s.active → s2.pos = s.pos →
              s2.acct = s.acct → ∃ r, appendLimit c s2 p = .ok r := by
            intro s2 e1 e2 e3 e4
            simp only [appendLimit, omUpdate, bind, Except.bind, assertP, e1, e2, e3, e4]
            rw [if_pos (show p.remaining > 0 from hq)]
            simp only [Book.insert, getById_none.2 hfresh]
            by_cases hlen : s.active.length ≥ c.maxOpen
            · rw [if_pos hlen]; exact ⟨_, rfl⟩
            · rw [if_neg hlen, if_neg (by simp only [activeCap]; omega)]
              simp only [orderMargin_total c hw hg hdb]
              split
              · next hgt =>
                obtain ⟨a, ha⟩ := transfer_total (e := c.env) (d := .orderMargin) (c := .wallet)
                  (x := marginReq c (s.active ++ [p]) s.pos.quantity - s.acct.balance .orderMargin)
                  hsums (by omega) (by simp)
                have hwal : 0 ≤ a.balance .wallet := by
                  rw [transfer_balance ha]; simp; omega
                simp only [ha, appendChecks, bind, Except.bind, assertP]
                simp [hwal]
              · split
                · omega
                · exact ⟨_, rfl⟩
          obtain ⟨⟨s3, r⟩, hr⟩ := key
            { s with log := .limitSubmit o :: s.log, nextId := s.nextId + 1, om := s.active }
            rfl rfl rfl rfl
          simp only [p] at hr
          rw [hr]
          cases r <;> exact ⟨_, _, rfl⟩

end Lfest
