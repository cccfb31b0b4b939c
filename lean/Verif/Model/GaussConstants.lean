/-!
# Tables of `tf_quant_finance/math/integration/gauss_constants.py`

Generated from the text of the file; every number is given in units of `10^-25`, which is exact for the decimals in the file.
-/

namespace Model

/-- `legendre_roots` L3-114. -/
def legendreRoots : Nat → Option (List Int)
  | 2 => some
      [-5773502691896257645091488, 5773502691896257645091488]
  | 3 => some
      [-7745966692414833770358531, 0, 7745966692414833770358531]
  | 4 => some
      [-8611363115940525752239465, -3399810435848562648026658, 3399810435848562648026658, 8611363115940525752239465]
  | 5 => some
      [-9061798459386639927976269, -5384693101056830910363144, 0, 5384693101056830910363144, 9061798459386639927976269]
  | 6 => some
      [-9324695142031520278123016, -6612093864662645136613996, -2386191860831969086305017, 2386191860831969086305017,
       6612093864662645136613996, 9324695142031520278123016]
  | 7 => some
      [-9491079123427585245261897, -7415311855993944398638648, -4058451513773971669066064, 0, 4058451513773971669066064,
       7415311855993944398638648, 9491079123427585245261897]
  | 8 => some
      [-9602898564975362316835609, -7966664774136267395915539, -5255324099163289858177390, -1834346424956498049394761,
       1834346424956498049394761, 5255324099163289858177390, 7966664774136267395915539, 9602898564975362316835609]
  | 9 => some
      [-9681602395076260898355762, -8360311073266357942994298, -6133714327005903973087020, -3242534234038089290385380, 0,
       3242534234038089290385380, 6133714327005903973087020, 8360311073266357942994298, 9681602395076260898355762]
  | 10 => some
      [-9739065285171717200779640, -8650633666889845107320967, -6794095682990244062343274, -4333953941292471907992659,
       -1488743389816312108848260, 1488743389816312108848260, 4333953941292471907992659, 6794095682990244062343274,
       8650633666889845107320967, 9739065285171717200779640]
  | 11 => some
      [-9782286581460569928039380, -8870625997680952990751578, -7301520055740493240934163, -5190961292068118159257257,
       -2695431559523449723315320, 0, 2695431559523449723315320, 5190961292068118159257257, 7301520055740493240934163,
       8870625997680952990751578, 9782286581460569928039380]
  | 12 => some
      [-9815606342467192506905491, -9041172563704748566784659, -7699026741943046870368938, -5873179542866174472967024,
       -3678314989981801937526915, -1252334085114689154724414, 1252334085114689154724414, 3678314989981801937526915,
       5873179542866174472967024, 7699026741943046870368938, 9041172563704748566784659, 9815606342467192506905491]
  | 13 => some
      [-9841830547185881494728294, -9175983992229779652065478, -8015780907333099127942065, -6423493394403402206439846,
       -4484927510364468528779129, -2304583159551347940655281, 0, 2304583159551347940655281, 4484927510364468528779129,
       6423493394403402206439846, 8015780907333099127942065, 9175983992229779652065478, 9841830547185881494728294]
  | 14 => some
      [-9862838086968123388415973, -9284348836635735173363911, -8272013150697649931897947, -6872929048116854701480198,
       -5152486363581540919652907, -3191123689278897604356718, -1080549487073436620662447, 1080549487073436620662447,
       3191123689278897604356718, 5152486363581540919652907, 6872929048116854701480198, 8272013150697649931897947,
       9284348836635735173363911, 9862838086968123388415973]
  | 15 => some
      [-9879925180204854284895657, -9372733924007059043077589, -8482065834104272162006483, -7244177313601700474161861,
       -5709721726085388475372267, -3941513470775633698972074, -2011940939974345223006283, 0, 2011940939974345223006283,
       3941513470775633698972074, 5709721726085388475372267, 7244177313601700474161861, 8482065834104272162006483,
       9372733924007059043077589, 9879925180204854284895657]
  | 20 => some
      [-9931285991850949247861224, -9639719272779137912676661, -9122344282513259058677524, -8391169718222188233945291,
       -7463319064601507926143051, -6360536807265150254528367, -5108670019508270980043641, -3737060887154195606725482,
       -2277858511416450780804962, -765265211334973337546404, 765265211334973337546404, 2277858511416450780804962,
       3737060887154195606725482, 5108670019508270980043641, 6360536807265150254528367, 7463319064601507926143051,
       8391169718222188233945291, 9122344282513259058677524, 9639719272779137912676661, 9931285991850949247861224]
  | 32 => some
      [-9972638618494815635449811, -9856115115452683354001750, -9647622555875064307738119, -9349060759377396891709191,
       -8963211557660521239653072, -8493676137325699701336930, -7944837959679424069630973, -7321821187402896803874267,
       -6630442669302152009751152, -5877157572407623290407455, -5068999089322293900237475, -4213512761306353453641194,
       -3318686022821276497799168, -2392873622521370745446032, -1444719615827964934851864, -483076656877383162348126,
       483076656877383162348126, 1444719615827964934851864, 2392873622521370745446032, 3318686022821276497799168,
       4213512761306353453641194, 5068999089322293900237475, 5877157572407623290407455, 6630442669302152009751152,
       7321821187402896803874267, 7944837959679424069630973, 8493676137325699701336930, 8963211557660521239653072,
       9349060759377396891709191, 9647622555875064307738119, 9856115115452683354001750, 9972638618494815635449811]
  | _ => none

/-- `legendre_weights` L116-236. -/
def legendreWeights : Nat → Option (List Int)
  | 2 => some
      [10000000000000000000000000, 10000000000000000000000000]
  | 3 => some
      [5555555555555555555555556, 8888888888888888888888889, 5555555555555555555555556]
  | 4 => some
      [3478548451374538573730639, 6521451548625461426269361, 6521451548625461426269361, 3478548451374538573730639]
  | 5 => some
      [2369268850561890875142640, 4786286704993664680412915, 5688888888888888888888889, 4786286704993664680412915,
       2369268850561890875142640]
  | 6 => some
      [1713244923791703450402961, 3607615730481386075698335, 4679139345726910473898703, 4679139345726910473898703,
       3607615730481386075698335, 1713244923791703450402961]
  | 7 => some
      [1294849661688696932706114, 2797053914892766679014678, 3818300505051189449503698, 4179591836734693877551020,
       3818300505051189449503698, 2797053914892766679014678, 1294849661688696932706114]
  | 8 => some
      [1012285362903762591525314, 2223810344533744705443560, 3137066458778872873379622, 3626837833783619829651504,
       3626837833783619829651504, 3137066458778872873379622, 2223810344533744705443560, 1012285362903762591525314]
  | 9 => some
      [812743883615744119718922, 1806481606948574040584720, 2606106964029354623187429, 3123470770400028400686304,
       3302393550012597631645251, 3123470770400028400686304, 2606106964029354623187429, 1806481606948574040584720,
       812743883615744119718922]
  | 10 => some
      [666713443086881375935688, 1494513491505805931457763, 2190863625159820439955349, 2692667193099963550912269,
       2955242247147528701738930, 2955242247147528701738930, 2692667193099963550912269, 2190863625159820439955349,
       1494513491505805931457763, 666713443086881375935688]
  | 11 => some
      [556685671161736664827537, 1255803694649046246346943, 1862902109277342514260976, 2331937645919904799185237,
       2628045445102466621806889, 2729250867779006307144835, 2628045445102466621806889, 2331937645919904799185237,
       1862902109277342514260976, 1255803694649046246346943, 556685671161736664827537]
  | 12 => some
      [471753363865118271946160, 1069393259953184309602547, 1600783285433462263346525, 2031674267230659217490645,
       2334925365383548087608499, 2491470458134027850005624, 2491470458134027850005624, 2334925365383548087608499,
       2031674267230659217490645, 1600783285433462263346525, 1069393259953184309602547, 471753363865118271946160]
  | 13 => some
      [404840047653158795200216, 921214998377284479144218, 1388735102197872384636018, 1781459807619457382800467,
       2078160475368885023125232, 2262831802628972384120902, 2325515532308739101945895, 2262831802628972384120902,
       2078160475368885023125232, 1781459807619457382800467, 1388735102197872384636018, 921214998377284479144218,
       404840047653158795200216]
  | 14 => some
      [351194603317518630318329, 801580871597602098056333, 1215185706879031846894148, 1572031671581935345696019,
       1855383974779378137417166, 2051984637212956039659241, 2152638534631577901958764, 2152638534631577901958764,
       2051984637212956039659241, 1855383974779378137417166, 1572031671581935345696019, 1215185706879031846894148,
       801580871597602098056333, 351194603317518630318329]
  | 15 => some
      [307532419961172683546284, 703660474881081247092674, 1071592204671719350118695, 1395706779261543144478048,
       1662692058169939335532009, 1861610000155622110268006, 1984314853271115764561183, 2025782419255612728806202,
       1984314853271115764561183, 1861610000155622110268006, 1662692058169939335532009, 1395706779261543144478048,
       1071592204671719350118695, 703660474881081247092674, 307532419961172683546284]
  | 20 => some
      [176140071391521183118620, 406014298003869413310400, 626720483341090635695065, 832767415767047487247581,
       1019301198172404350367501, 1181945319615184173123774, 1316886384491766268984945, 1420961093183820513292983,
       1491729864726037467878287, 1527533871307258506980843, 1527533871307258506980843, 1491729864726037467878287,
       1420961093183820513292983, 1316886384491766268984945, 1181945319615184173123774, 1019301198172404350367501,
       832767415767047487247581, 626720483341090635695065, 406014298003869413310400, 176140071391521183118620]
  | 32 => some
      [70186100094700966004071, 162743947309056706051706, 253920653092620594557526, 342738629130214331026877, 428358980222266806568786,
       509980592623761761961632, 586840934785355471452836, 658222227763618468376501, 723457941088485062253994,
       781938957870703064717409, 833119242269467552221991, 876520930044038111427715, 911738786957638847128686,
       938443990808045656391802, 956387200792748594190820, 965400885147278005667648, 965400885147278005667648,
       956387200792748594190820, 938443990808045656391802, 911738786957638847128686, 876520930044038111427715,
       833119242269467552221991, 781938957870703064717409, 723457941088485062253994, 658222227763618468376501,
       586840934785355471452836, 509980592623761761961632, 428358980222266806568786, 342738629130214331026877,
       253920653092620594557526, 162743947309056706051706, 70186100094700966004071]
  | _ => none

/-- `stieltjes_roots` L238-264. -/
def stieltjesRoots : Nat → Option (List Int)
  | 15 => some
      [-9914553711208126392069000, -8648644233597690727897000, -5860872354676911302941000, -2077849550078984676007000,
       2077849550078984676007000, 5860872354676911302941000, 8648644233597690727897000, 9914553711208126392069000]
  | 21 => some
      [-9956571630258080807355000, -9301574913557082260012000, -7808177265864168970637000, -5627571346686046833390000,
       -2943928627014601981310000, 0, 2943928627014601981311000, 5627571346686046833390000, 7808177265864168970637000,
       9301574913557082260012000, 9956571630258080807355000]
  | 31 => some
      [-9980022986933970602852000, -9677390756791391342574000, -8972645323440819008825000, -7904185014424659329677000,
       -6509967412974169705337000, -4850818636402396806937000, -2991800071531688121668000, -1011420669187174990271000,
       1011420669187174990271000, 2991800071531688121668000, 4850818636402396806937000, 6509967412974169705337000,
       7904185014424659329677000, 8972645323440819008825000, 9677390756791391342574000, 9980022986933970602852000]
  | _ => none

/-- `kronrod_weights` L266-308. -/
def kronrodWeights : Nat → Option (List Int)
  | 15 => some
      [630920926299785532907000, 1406532597155259187452000, 1903505780647854099133000, 2094821410847278280130000,
       1903505780647854099133000, 1406532597155259187452000, 630920926299785532907000, 229353220105292249637000,
       1047900103222501838399000, 1690047266392679028266000, 2044329400752988924142000, 2044329400752988924142000,
       1690047266392679028266000, 1047900103222501838400000, 229353220105292249637300]
  | 21 => some
      [325581623079647274788000, 750396748109199527670000, 1093871588022976418992000, 1347092173114733259280000,
       1477391049013384913748000, 1477391049013384913748000, 1347092173114733259280000, 1093871588022976418990000,
       750396748109199527670000, 325581623079647274790000, 116946388673718742781000, 547558965743519960314000,
       931254545836976055350000, 1234919762620658510780000, 1427759385770600807970000, 1494455540029169056650000,
       1427759385770600807971000, 1234919762620658510780000, 931254545836976055350000, 547558965743519960313800,
       116946388673718742781000]
  | 31 => some
      [150079473293161225384000, 353463607913758462220000, 534815246909280872653000, 698541213187282587100000,
       830805028231330210383000, 931265981708253212255000, 991735987217919593324000, 1013300070147915490170000,
       991735987217919593324000, 931265981708253212250000, 830805028231330210380000, 698541213187282587095000,
       534815246909280872653000, 353463607913758462220000, 150079473293161225380000, 53774798729233489878000, 254608473267153201870000,
       445897513247648766080000, 620095678006706402851000, 768496807577203788944000, 885644430562117706473000,
       966427269836236785052000, 1007698455238755950450000, 1007698455238755950450000, 966427269836236785050000,
       885644430562117706470000, 768496807577203788944000, 620095678006706402850000, 445897513247648766080000,
       254608473267153201869000, 53774798729233489878000]
  | _ => none

end Model
