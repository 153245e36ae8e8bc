Rosenbrock: 9/9 nls=21 qp=21 failedLS=0 ls=24 [(MiniOpt.NLSTermination.satisfiedAbsoluteTol, 9)]
RosenbrockLM: 9/9 nls=32 qp=32 failedLS=3 ls=32 [(MiniOpt.NLSTermination.satisfiedAbsoluteTol, 9)]
InequalityRosenbrock: 6/6 nls=21 qp=139 failedLS=0 ls=24 [(MiniOpt.NLSTermination.satisfiedFirstOrderTol, 4), (MiniOpt.NLSTermination.satisfiedRelativeTol, 2)]
Rosenbrock6D: 2/2 nls=25 qp=183 failedLS=0 ls=37 [(MiniOpt.NLSTermination.satisfiedFirstOrderTol, 2)]
Himmelblau: 961/961 nls=4397 qp=34001 failedLS=0 ls=4882 [(MiniOpt.NLSTermination.satisfiedFirstOrderTol, 466), (MiniOpt.NLSTermination.satisfiedAbsoluteTol, 495)]
HimmelblauQuadrant: 529/529 nls=2409 qp=18427 failedLS=0 ls=2677 [(MiniOpt.NLSTermination.satisfiedFirstOrderTol, 215), (MiniOpt.NLSTermination.satisfiedAbsoluteTol, 314)]
Sphere: 100/100 nls=1579 qp=1579 failedLS=0 ls=2162 [(MiniOpt.NLSTermination.satisfiedFirstOrderTol, 100)]
TwoAngle: 315/315 nls=1749 qp=1749 failedLS=0 ls=1963 [(MiniOpt.NLSTermination.satisfiedAbsoluteTol, 315)]
TwoAngleIneq: 240/240 nls=1320 qp=10561 failedLS=0 ls=1524 [(MiniOpt.NLSTermination.satisfiedAbsoluteTol, 240)]
DualActuator: 3/3 nls=31 qp=155 failedLS=2 ls=58 [(MiniOpt.NLSTermination.satisfiedAbsoluteTol, 3)]
SingleIneq: PASS MiniOpt.QPTermination.satisfiedKktTol iters=4 x=[3.999999] s=[0.000001]
IneqActive: PASS MiniOpt.QPTermination.satisfiedKktTol iters=9 x=[1.000000, -3.000000] s=[0.000000, 0.000000]
IneqPartial: PASS MiniOpt.QPTermination.satisfiedKktTol iters=6 x=[1.000000, -2.000000, 10.000000] s=[0.000000, 4.500000]
IneqAndEq: PASS MiniOpt.QPTermination.satisfiedKktTol iters=9 x=[0.500000, -1.000000, 2.000000] s=[0.000000, 0.000000]
IneqActive: PASS MiniOpt.QPTermination.satisfiedKktTol iters=2 x=[1.000000, -3.000000] s=[0.000000, 0.000000]
IneqPartial: PASS MiniOpt.QPTermination.satisfiedKktTol iters=7 x=[1.000000, -2.000000, 10.000000] s=[0.000000, 4.500000]
IneqAndEq: PASS MiniOpt.QPTermination.satisfiedKktTol iters=2 x=[0.500000, -1.000000, 2.000000] s=[0.000000, 0.000000]
EqOnly: PASS MiniOpt.QPTermination.satisfiedKktTol iters=1 x=[-4.169231, 1.280694, -2.338462, 1.679826] s=[]
EqFull: PASS MiniOpt.QPTermination.satisfiedKktTol iters=1 x=[1.000000, 2.000000, 3.000000] s=[]
