import Verif.Model.MarketUpdate

/-!
# `IsolatedMarginRiskEngine`
-/

namespace Lfest

/-- isolated_margin.rs:138-145 and 186-193: margin plus taker fee of `qty` at `price`
compared with the funds available -/
def checkFunds (c : Cfg) (qty price funds : Int) : Res (Except RiskError Unit) := do
  let v ← convert c.env qty price
  let margin := dmul c.scale v c.spec.initMarginReq
  let fee := dmul c.scale v c.spec.feeTaker
  if margin + fee > funds then .ok (.error .notEnoughAvailableBalance) else .ok (.ok ())

/-- isolated_margin.rs:122-169 `check_market_buy_order` -/
def checkMarketBuy (c : Cfg) (pos : Position) (posMargin qty price wallet : Int) :
    Res (Except RiskError Unit) :=
  match pos with
  | .neutral => checkFunds c qty price wallet
  | .long _ => checkFunds c qty price wallet
  | .short p =>
    if qty ≤ p.qty then .ok (.ok ())
    else checkFunds c (qty - p.qty) price (wallet + posMargin)

/-- isolated_margin.rs:171-217 `check_market_sell_order` -/
def checkMarketSell (c : Cfg) (pos : Position) (posMargin qty price wallet : Int) :
    Res (Except RiskError Unit) :=
  match pos with
  | .neutral => checkFunds c qty price wallet
  | .short _ => checkFunds c qty price wallet
  | .long p =>
    if qty ≤ p.qty then .ok (.ok ())
    else checkFunds c (qty - p.qty) price (wallet + posMargin)

/-- isolated_margin.rs:39-63 `check_market_order` (the side assertions 133 and 182 hold by
construction) -/
def checkMarketOrder (c : Cfg) (pos : Position) (posMargin : Int) (side : Side)
    (qty price wallet : Int) : Res (Except RiskError Unit) :=
  match side with
  | .buy => checkMarketBuy c pos posMargin qty price wallet
  | .sell => checkMarketSell c pos posMargin qty price wallet

/-- isolated_margin.rs:65-86 `check_limit_order` -/
def checkLimitOrder (c : Cfg) (pos : Position) (o : Limit) (wallet : Int) (om : Book) :
    Res (Except RiskError Unit) := do
  let m ← orderMargin c.env c.spec.initMarginReq om pos
  let m' ← orderMarginWithOrder c.env c.spec.initMarginReq om pos o
  if m' > wallet + m then .ok (.error .notEnoughAvailableBalance) else .ok (.ok ())

/-- isolated_margin.rs:88-114 `check_maintenance_margin` -/
def checkMaintenanceMargin (c : Cfg) (ms : MarketState) (pos : Position) :
    Except RiskError Unit :=
  match pos with
  | .neutral => .ok ()
  | .long p =>
    if ms.bid < liquidationPriceLong c.scale p.entry c.spec.maintenanceMargin then
      .error .liquidate
    else .ok ()
  | .short p =>
    if ms.ask > liquidationPriceShort c.scale p.entry c.spec.maintenanceMargin then
      .error .liquidate
    else .ok ()

end Lfest
