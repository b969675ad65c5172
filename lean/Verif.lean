import Verif.Base.AMap
import Verif.Feat.Props
import Verif.Base.Mat
import Verif.Quat.Props
import Verif.Types.Props
import Verif.Types.PropsIds
import Verif.Base.GivensLemmas
import Verif.State.PropsA
import Verif.State.PropsB
import Verif.State.PropsC
import Verif.Imu.Props
import Verif.Quat.PropsB
import Verif.Prop.Model
import Verif.Prop.Props
import Verif.Prop.Ode
import Verif.Prop.PropsB
import Verif.Prop.PropsC
import Verif.Cam.Props
import Verif.Land.Props
import Verif.Upd.Props
import Verif.Upd.PropsB
import Verif.Upd.PropsC
import Verif.Tri.Props
import Verif.Tri.PropsB
import Verif.Tri.Retri
import Verif.Tri.PropsRetri
import Verif.Tri.PropsParallax
import Verif.Cpi.Props
import Verif.Cpi.PropsB
import Verif.Eval.Props
import Verif.Eval.PropsB
import Verif.Eval.PropsC
import Verif.Eval.PropsD
import Verif.Disp.Props
import Verif.Init.Props
import Verif.Init.PropsB
import Verif.Init.PropsC
import Verif.Vio.Zupt
import Verif.Vio.Props
import Verif.Vio.PropsRest
import Verif.Vio.PropsRestPost
import Verif.Vio.Select
import Verif.Vio.PropsSel
import Verif.Track.Ids
import Verif.Track.PropsIds
import Verif.Track.Klt
import Verif.Track.KltLemmas
import Verif.Track.PropsKlt
import Verif.Ros.Model
import Verif.Ros.Props
import Verif.Ros.Publish
import Verif.Ros.PropsPublish
import Verif.Vio.InitSm
import Verif.Vio.PropsInit
import Verif.Vio.Manager
import Verif.Vio.PropsMgr
import Verif.Sim.Spline
import Verif.Sim.Lemmas
import Verif.Sim.PropsSpline
import Verif.Sim.Deriv
import Verif.Sim.Join
import Verif.Sim.PropsSplineD
import Verif.Sim.Simulator
import Verif.Sim.PropsSim
import Verif.Sim.Points
import Verif.Sim.PropsPoints
import Verif.Sim.PropsAddCam
import Verif.Vio.PropsZupt
import Verif.State.PropsInfo
import Verif.Prop.PropsFast
import Verif.Prop.PropsRk
import Verif.Prop.PropsRk4
import Verif.Prop.PropsOrder
import Verif.Upd.Msckf
import Verif.Upd.Stack
import Verif.Upd.PropsMsckf
import Verif.State.PropsFlat
import Verif.Upd.Slam
import Verif.Upd.AnchorState
import Verif.Upd.PropsSlam
import Verif.Upd.PropsDelay
import Verif.Quat.PropsC
import Verif.Sim.PropsCtl
import Verif.Cpi.PropsCov
import Verif.Cpi.PropsCov4
import Verif.Cpi.V2
import Verif.Cpi.PropsV2
import Verif.Cpi.PropsV2B
import Verif.Cpi.PropsV2C
import Verif.Mle.Model
import Verif.Mle.PropsMan
import Verif.Mle.PropsImu
import Verif.Mle.PropsImuB
import Verif.Mle.PropsPrior
import Verif.Mle.Start
import Verif.Mle.PropsStart
import Verif.Mle.PropsCov
import Verif.Mle.Problem
import Verif.Mle.SpecProblem
import Verif.Mle.ProblemLemmas
import Verif.Mle.PropsProblem
import Verif.Upd.PropsFej
import Verif.State.PropsUnit
import Verif.Upd.PropsView
import Verif.Upd.PropsAnchorS
import Verif.Vio.Frame
import Verif.Vio.FrameLemmas
import Verif.Vio.FrameKeep
import Verif.Vio.PropsFrame
import Verif.Vio.PropsStream
import Verif.Vio.PropsWindow
import Verif.Vio.Loop
import Verif.Vio.LoopDb
import Verif.Vio.LoopFrame
import Verif.Vio.PropsLoop
import Verif.Vio.PropsUsed
import Verif.Vio.PropsBound
import Verif.Vio.PropsImage
import Verif.State.PropsSure
import Verif.Vio.PropsSure
import Verif.Vio.Boot
import Verif.Vio.PropsBoot
import Verif.Vio.PropsStart
import Verif.Vio.CatchUp
import Verif.Vio.PropsCatchUp
import Verif.Track.Desc
import Verif.Track.PropsDesc
import Verif.Cfg.Model
import Verif.Cfg.Props
import Verif.Cfg.PropsCal
import Verif.Cfg.PropsExample
import Verif.Cfg.PropsMore
import Verif.Cfg.Down
import Verif.Cfg.PropsDown
import Verif.Cfg.SimLoad
import Verif.Cfg.PropsSimLoad
import Verif.Ros.Save
import Verif.Eval.SimRes
import Verif.Eval.PropsSimRes
import Verif.Eval.Record
import Verif.Eval.PropsRecord
import Verif.Eval.Traj
import Verif.Eval.PropsTraj
import Verif.Eval.PropsTrajB
import Verif.Eval.Tables
import Verif.Eval.PropsTables
import Verif.Eval.Timing
import Verif.Eval.PropsTiming
import Verif.Ros.Serial
import Verif.Ros.PropsSerial
import Verif.Ros.PropsGt
import Verif.Ros.Live
import Verif.Ros.PropsLive
import Verif.Vio.PropsSimRun
import Verif.Vio.Aruco
import Verif.Vio.PropsAruco
import Verif.Track.Grid
import Verif.Track.PropsGrid
import Verif.Track.Show
import Verif.Track.PropsShow
import Verif.Sim.Perturb
import Verif.Sim.PropsPerturb
import Verif.Sim.SimInit
import Verif.Sim.PropsSimInit
import Verif.Eval.Plot
import Verif.Eval.PropsPlot
import Verif.Vio.Shown
import Verif.Vio.PropsShown
import Verif.Ros.Depth
import Verif.Ros.PropsDepth
import Verif.Util.Print
import Verif.Util.PropsPrint
import Verif.Eval.Hist
import Verif.Eval.PropsHist
import Verif.Sim.File
import Verif.Sim.PropsFile
import Verif.Track.PropsDetect
import Verif.Track.PropsObserved
import Verif.Track.PropsStereoDetect
import Verif.Sim.PropsSplineE
import Verif.Mle.PropsPriorB
import Verif.Vio.Odo
import Verif.Vio.PropsOdo
import Verif.Vio.PropsOdoB
import Verif.Sim.Start
import Verif.Sim.PropsStart
import Verif.Track.PropsGridMask
import Verif.Vio.Wanted
import Verif.Vio.PropsWanted
